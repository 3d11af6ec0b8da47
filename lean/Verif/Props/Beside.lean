import Verif.Props.Accept
import Verif.Props.Conserve
import Verif.Props.Order
import Verif.Props.Reports

/-
C117: what does not concern an account does not change it.
-/

namespace Silverfox

set_option linter.unusedSectionVars false

variable {M : Type} [Mag M]

/-! ### Specification -/

/-- Specification: none of the words of the text, comments aside, is one of `P`. -/
def Unnamed (P : Str → Bool) (c : Str) : Prop := ∀ line ∈ lines c, ∀ v ∈ splitWs (removeComments line), P v = false

/-- Specification: some entries that name no account of `P` are left out. -/
inductive LeavesOut (P : Str → Bool) : List Str → List Str → Prop
  | nil : LeavesOut P [] []
  | keep (c : Str) {cs cs' : List Str} : LeavesOut P cs cs' → LeavesOut P (c :: cs) (c :: cs')
  | leave (c : Str) {cs cs' : List Str} : IsEntryItem c → Unnamed P c → LeavesOut P cs cs' → LeavesOut P (c :: cs) cs'

/-- Specification: in every file some entries that name no account of `P` are left out. -/
def FilesLeaveOut (P : Str → Bool) (file file' : APath → Option Str) : Prop :=
  ∀ p, (file p = none ∧ file' p = none) ∨
    ∃ t t' items items', file p = some t ∧ file' p = some t' ∧ Itemised (lines t) items ∧ Itemised (lines t') items' ∧
      LeavesOut P items items'

/-! ### Entries that do not name an account -/

/-- The entry has no posting of the account. -/
def Entry.Omits (k : Str) (x : Entry M) : Prop := ∀ p ∈ x.postings, p.account ≠ k

theorem Posting.parse_account_word (l : Str) (dec : Char) (accs : List Str) (p : Posting M)
    (h : Posting.parse l dec accs = .ok p) : p.account ∈ splitWs (removeComments l) := by
  cases hw : splitWs (removeComments l) with
  | nil =>
    unfold Posting.parse at h
    simp only [splitWs_trim, hw] at h
    cases h
  | cons w ts =>
    by_cases he : w = s%"envelope"
    · unfold Posting.parse at h
      simp only [splitWs_trim, hw, he, if_true, bind, Except.bind, pure, Except.pure] at h
      split at h
      · cases h
      · rename_i e hp
        cases h
        unfold EnvPosting.parse at hp
        rw [splitWs_trim, hw] at hp
        simp only [List.drop_succ_cons, List.drop_zero] at hp
        split at hp
        · cases hp
        · cases hp
        · rename_i acc en rest
          simp only [bind, Except.bind, pure, Except.pure] at hp
          split at hp
          · cases hp
          · cases hp
            simp [Posting.account]
    · rw [(Posting.parse_first_word l dec accs p h hw he).2.2]; simp

theorem parsePostings_words (dec : Char) (accs : List Str) (ls : List Str) (ps : List (Posting M))
    (h : Entry.parsePostings dec accs ls = .ok ps) :
    ∀ p ∈ ps, ∃ l ∈ ls, p.account ∈ splitWs (removeComments l) := by
  induction ls generalizing ps with
  | nil => cases h; simp
  | cons l ls ih =>
    simp only [Entry.parsePostings] at h
    split at h
    · intro p hp
      obtain ⟨l', h1, h2⟩ := ih ps h p hp
      exact ⟨l', by simp [h1], h2⟩
    · simp only [bind, Except.bind, pure, Except.pure] at h
      split at h
      · cases h
      · rename_i q hq
        split at h
        · cases h
        · rename_i qs hqs
          cases h
          intro p hp
          rcases List.mem_cons.1 hp with rfl | hp
          · exact ⟨l, by simp, Posting.parse_account_word l dec accs _ hq⟩
          · obtain ⟨l', h1, h2⟩ := ih qs hqs p hp
            exact ⟨l', by simp [h1], h2⟩

theorem Entry.parse_omits (env : Env) (c fmt : Str) (dec : Char) (accs : List Str) (x : Entry M) (P : Str → Bool)
    (h : Entry.parse env c fmt dec accs = .ok x) (hk : Unnamed P c) : ∀ k, P k = true → x.Omits k := by
  rw [Entry.parse_ink] at h
  cases hi : inkLines c with
  | nil => rw [hi] at h; cases h
  | cons a ls =>
    rw [hi] at h
    simp only [bind, Except.bind, pure, Except.pure] at h
    split at h
    · cases h
    · split at h
      · cases h
      · rename_i ps hps
        split at h
        · cases h
        · cases h
          intro k hP p hp hpk
          obtain ⟨l, hl, hw⟩ := parsePostings_words dec accs ls ps hps p hp
          have hm : l ∈ ink (lines c) := by rw [ink_lines, hi]; simp [hl]
          unfold ink at hm
          obtain ⟨line, hline, rfl⟩ : ∃ line ∈ lines c, trim line = l := by
            simpa using (List.mem_filter.1 hm).1
          rw [removeComments_eq_rc, splitWs_rc_trim] at hw
          have := hk line hline p.account (by rw [removeComments_eq_rc]; exact hw)
          rw [hpk, hP] at this
          cases this

theorem Envelope.processEntry_omits (d : Date) (e : Envelope M) (x : Entry M) (h : x.Omits e.account) :
    e.processEntry d x = .ok e := by
  unfold Envelope.processEntry
  split
  · have key : ∀ ps : List (EnvPosting M), (∀ p ∈ ps, p.account ≠ e.account) →
        Envelope.processManual d x.date ps e = .ok e := by
      intro ps
      induction ps with
      | nil => intro _; rfl
      | cons p ps ih =>
        intro hp
        unfold Envelope.processManual
        rw [if_neg fun hc => hp p (by simp) hc.1]
        exact ih fun q hq => hp q (by simp [hq])
    apply key
    intro p hp
    unfold Entry.envelopePostings at hp
    obtain ⟨q, hq, hqp⟩ := List.mem_filterMap.1 hp
    cases q with
    | classic c => simp at hqp
    | envelope f =>
      simp only [Option.some.injEq] at hqp
      subst hqp
      exact h _ hq
  · unfold Envelope.infer
    have : (x.postings.countP fun p => p.account = e.account) = 0 := by
      rw [List.countP_eq_zero]
      intro p hp
      simpa using h p hp
    simp only [this]
    rw [if_pos (Or.inl (by omega))]

theorem processEnvelopes_omits (d : Date) (es : List (Envelope M)) (x : Entry M) (k : Str) (h : x.Omits k)
    (he : ∀ e ∈ es, e.account = k) : Account.processEnvelopes d x es = .ok es := by
  induction es with
  | nil => rfl
  | cons e es ih =>
    simp only [Account.processEnvelopes, Envelope.processEntry_omits d e x (by rw [he e (by simp)]; exact h),
      ih fun f hf => he f (by simp [hf]), bind, Except.bind, pure, Except.pure]

theorem Account.processEntry_omits (d : Date) (a : Account M) (x : Entry M) (h : x.Omits a.name) (hw : a.WF) :
    a.processEntry d x = .ok a := by
  have key : ∀ (ps : List (Posting M)) (r : Pool M), (∀ p ∈ ps, p.account ≠ a.name) →
      Account.processReal a.name x ps r = .ok r := by
    intro ps r
    induction ps with
    | nil => intro _; rfl
    | cons p ps ih =>
      intro hp
      unfold Account.processReal
      rw [if_neg fun hc => hp p (by simp) hc.1]
      exact ih fun q hq => hp q (by simp [hq])
  unfold Account.processEntry
  simp only [processEnvelopes_omits d a.expenses x a.name h fun e he => hw.owner e (by simp [Account.envelopes, he]),
    processEnvelopes_omits d a.goals x a.name h fun e he => hw.owner e (by simp [Account.envelopes, he]),
    key x.postings a.real h, bind, Except.bind, pure, Except.pure]

theorem processAll_get (d : Date) (x : Entry M) (as as1 : List (Str × Account M)) (h : Ledger.processAll d x as = .ok as1)
    (k : Str) : (mapGet as k = none ∧ mapGet as1 k = none) ∨
      ∃ a a1, mapGet as k = some a ∧ mapGet as1 k = some a1 ∧ a.processEntry d x = .ok a1 := by
  induction as generalizing as1 with
  | nil => cases h; exact Or.inl ⟨rfl, rfl⟩
  | cons p as ih =>
    obtain ⟨j, a⟩ := p
    simp only [Ledger.processAll, bind, Except.bind, pure, Except.pure] at h
    split at h
    · cases h
    · rename_i a1 ha
      split at h
      · cases h
      · rename_i as2 h2
        cases h
        by_cases hj : j = k
        · exact Or.inr ⟨a, a1, by simp [mapGet, hj], by simp [mapGet, hj], ha⟩
        · have e1 : ∀ (b : Account M) bs, mapGet ((j, b) :: bs) k = mapGet bs k := by
            intro b bs; simp [mapGet, hj]
          rw [e1, e1]
          exact ih as2 h2

/-! ### Two ledgers, the one with fewer entries -/

/-- The entry has a posting of one of the accounts. -/
def Entry.names (P : Str → Bool) (x : Entry M) : Bool := x.postings.any fun p => P p.account

theorem Entry.names_false (P : Str → Bool) (x : Entry M) (h : ∀ k, P k = true → x.Omits k) : x.names P = false := by
  unfold Entry.names
  rw [List.any_eq_false]
  intro p hp hP
  exact h p.account hP p hp rfl

/-- The two ledgers have the same declarations, the same accounts of `P` and the same entries of them. -/
structure Besides (P : Str → Bool) (l l' : Ledger M) : Prop where
  decl : LedDecl l l'
  inv : l.Inv
  inv' : l'.Inv
  same : ∀ k, P k = true → mapGet l'.accounts k = mapGet l.accounts k
  entries : ∃ g g', DateOrdered g l.entries ∧ DateOrdered g' l'.entries ∧ g'.filter (Entry.names P) = g.filter (Entry.names P)

theorem DateOrdered.filter {given es : List (Entry M)} (h : DateOrdered given es) (p : Entry M → Bool) :
    DateOrdered (given.filter p) (es.filter p) := by
  refine ⟨h.sorted.filter _, h.same.filter _, fun d => ?_⟩
  have := congrArg (List.filter p) (h.stable d)
  rw [List.filter_filter, List.filter_filter] at this
  rw [List.filter_filter, List.filter_filter]
  simpa [Bool.and_comm] using this

theorem Besides.named {P : Str → Bool} {l l' : Ledger M} (h : Besides P l l') :
    l'.entries.filter (Entry.names P) = l.entries.filter (Entry.names P) := by
  obtain ⟨g, g', h1, h2, h3⟩ := h.entries
  exact C47_order_is_determined (g.filter (Entry.names P)) _ _ (h3 ▸ h2.filter _) (h1.filter _)

theorem reading_besides (env : Env) (hord : FairOrder env.ord) (c : Str) (P : Str → Bool) (l l' l1 : Ledger M)
    (hs : Besides P l l')
    (h : Reading env c l l1) : ∃ l1', Reading env c l' l1' ∧ Besides P l1 l1' := by
  obtain ⟨l1', h', hd⟩ := reading_decl env hord c l l' l1 hs.decl h
  have hi : l1.Inv := by obtain ⟨i, hi⟩ := h.step; exact step_inv env _ _ i hs.inv hi
  clear h' hd l1'
  cases h with
  | account a h1 h2 =>
    have h3 : Reading env c l' { l' with accounts := mapInsert l'.accounts a.name a } :=
      .account a h1 (by rw [hs.decl.decimal, hs.decl.format]; exact h2)
    refine ⟨_, h3, ⟨⟨hs.decl.format, hs.decl.currency, hs.decl.decimal, mapInsert_decl _ _ hs.decl.accounts _ a⟩, hi, ?_, ?_, hs.entries⟩⟩
    · obtain ⟨i, hi⟩ := h3.step; exact step_inv env _ _ i hs.inv' hi
    · intro k hk
      simp only [mapGet_insert, hs.same k hk]
  | currency v more h1 =>
    have h3 : Reading env c l' { l' with currency := v } := .currency v more h1
    refine ⟨_, h3, ⟨⟨hs.decl.format, rfl, hs.decl.decimal, hs.decl.accounts⟩, hi, ?_, hs.same, hs.entries⟩⟩
    obtain ⟨i, hi⟩ := h3.step; exact step_inv env _ _ i hs.inv' hi
  | dateFormat v more h1 =>
    have h3 : Reading env c l' { l' with dateFormat := v } := .dateFormat v more h1
    refine ⟨_, h3, ⟨⟨rfl, hs.decl.currency, hs.decl.decimal, hs.decl.accounts⟩, hi, ?_, hs.same, hs.entries⟩⟩
    obtain ⟨i, hi⟩ := h3.step; exact step_inv env _ _ i hs.inv' hi
  | entry kw x _ h1 h2 h3 h4 =>
    obtain ⟨h6, l2', h5⟩ := addEntry_accepts env hord x l l' l1 hs.decl h4
    have h7 : Reading env c l' l2' := by
      refine .entry kw x _ h1 h2 ?_ h5
      rw [hs.decl.format, hs.decl.decimal, hs.decl.names]
      exact h3
    refine ⟨l2', h7, ⟨h6.symm.trans (hs.decl.trans (addEntry_declared env hord x l' l2' h5)), hi, ?_, ?_, ?_⟩⟩
    · obtain ⟨i, hi⟩ := h7.step; exact step_inv env _ _ i hs.inv' hi
    · obtain ⟨as1, p1, rfl⟩ := (addEntry_iff env hord _ _ x).1 h4
      obtain ⟨as2, p2, rfl⟩ := (addEntry_iff env hord _ _ x).1 h5
      intro k hP
      have hk := hs.same k hP
      simp only
      rcases processAll_get _ _ _ _ p1 k with ⟨q1, q2⟩ | ⟨a, a1, q1, q2, q3⟩ <;>
        rcases processAll_get _ _ _ _ p2 k with ⟨r1, r2⟩ | ⟨b, b1, r1, r2, r3⟩
      · rw [q2, r2]
      · rw [q1, r1] at hk; cases hk
      · rw [q1, r1] at hk; cases hk
      · rw [q1, r1] at hk
        cases hk
        rw [q3] at r3
        cases r3
        rw [q2, r2]
    · obtain ⟨as1, p1, rfl⟩ := (addEntry_iff env hord _ _ x).1 h4
      obtain ⟨as2, p2, rfl⟩ := (addEntry_iff env hord _ _ x).1 h5
      obtain ⟨g, g', e1, e2, e3⟩ := hs.entries
      exact ⟨g ++ [x], g' ++ [x], e1.snoc x, e2.snoc x, by simp only [List.filter_append, e3]⟩

theorem addEntry_besides (env : Env) (hord : FairOrder env.ord) (P : Str → Bool) (x : Entry M)
    (hx : ∀ k, P k = true → x.Omits k) (l l' l1 : Ledger M) (hs : Besides P l l') (hi : l1.Inv) (h : l.addEntry env x = .ok l1) : Besides P l1 l' := by
  refine ⟨(addEntry_declared env hord x l l1 h).symm.trans hs.decl, hi, hs.inv', ?_, ?_⟩
  · obtain ⟨as1, p1, rfl⟩ := (addEntry_iff env hord _ _ x).1 h
    intro k hP
    simp only
    rw [hs.same k hP]
    rcases processAll_get _ _ _ _ p1 k with ⟨q1, q2⟩ | ⟨a, a1, q1, q2, q3⟩
    · rw [q1, q2]
    · have hm := mapGet_some_mem q1
      have hn := hs.inv.names k a hm
      rw [Account.processEntry_omits _ a x (by rw [hn]; exact hx k hP) (hs.inv.wf k a hm)] at q3
      cases q3
      rw [q1, q2]
  · obtain ⟨as1, p1, rfl⟩ := (addEntry_iff env hord _ _ x).1 h
    obtain ⟨g, g', e1, e2, e3⟩ := hs.entries
    refine ⟨g ++ [x], g', e1.snoc x, e2, ?_⟩
    simp [List.filter_append, e3, Entry.names_false P x hx]

/-- The one task with some entries left out. -/
inductive TaskLeavesOut (P : Str → Bool) : Task → Task → Prop
  | file (p : Str) : TaskLeavesOut P (.file p) (.file p)
  | items (cs cs' : List Str) : LeavesOut P cs cs' → TaskLeavesOut P (.items cs) (.items cs')

theorem denotes_besides (env : Env) (hord : FairOrder env.ord) (P : Str → Bool) (file file' : APath → Option Str)
    (hf : FilesLeaveOut P file file') (st st1 : Ledger M × APath) (task : Task) (h : Denotes env file st task st1)
    (task' : Task) (ht : TaskLeavesOut P task task') (l' : Ledger M) (hs : Besides P st.1 l') :
    ∃ l1', Denotes env file' (l', st.2) task' (l1', st1.2) ∧ Besides P st1.1 l1' := by
  induction h generalizing l' task' with
  | file l cwd path t cs st h1 h2 h3 _ ih =>
    cases ht
    rcases hf (resolve cwd path) with ⟨e, _⟩ | ⟨t0, t', ds, ds', e, h2', i1, i2, hds⟩
    · rw [h2] at e; cases e
    · rw [h2] at e
      cases e
      obtain ⟨items, _, hu⟩ := C88_items_of_a_text (lines t)
      have : ds = cs := by rw [hu ds i1, hu cs h3]
      subst this
      obtain ⟨l1', h4, h5⟩ := ih _ (.items _ _ hds) l' hs
      exact ⟨l1', .file l' cwd path t' ds' _ h1 h2' i2 h4, h5⟩
  | done st =>
    cases ht with
    | items _ _ hds => cases hds; exact ⟨l', .done _, hs⟩
  | nothing st st' c cs h1 _ ih =>
    cases ht with
    | items _ _ hds =>
      cases hds with
      | keep _ hcs =>
        obtain ⟨l1', h4, h5⟩ := ih _ (.items _ _ hcs) l' hs
        exact ⟨l1', .nothing _ _ _ _ h1 h4, h5⟩
      | leave _ hc _ hcs =>
        exact ih _ (.items _ _ hcs) l' hs
  | item l l2 cwd st' c cs h1 _ ih =>
    cases ht with
    | items _ _ hds =>
      cases hds with
      | keep _ hcs =>
        obtain ⟨l2', h2, h3⟩ := reading_besides env hord c P l l' l2 hs h1
        obtain ⟨l1', h4, h5⟩ := ih _ (.items _ _ hcs) l2' h3
        exact ⟨l1', .item l' l2' cwd _ c _ h2 h4, h5⟩
      | leave _ hc hu hcs =>
        have hi : l2.Inv := by obtain ⟨i, hi⟩ := h1.step; exact step_inv env _ _ i hs.inv hi
        obtain ⟨kw, more, e, hn⟩ := hc
        have hs2 : Besides P l2 l' := by
          cases h1 with
          | account a q1 q2 => rw [e] at q1; cases q1; simp at hn
          | currency v more q1 => rw [e] at q1; cases q1; simp at hn
          | dateFormat v more q1 => rw [e] at q1; cases q1; simp at hn
          | entry kw' x _ q1 q2 q3 q4 =>
            exact addEntry_besides env hord P x (Entry.parse_omits env c _ _ _ x P q3 hu) l l' l2 hs hi q4
        exact ih _ (.items _ _ hcs) l' hs2
  | incl st st1 st' c v more cs h1 _ _ ih1 ih2 =>
    cases ht with
    | items _ _ hds =>
      cases hds with
      | keep _ hcs =>
        obtain ⟨l2', h2, h3⟩ := ih1 _ (.file v) l' hs
        obtain ⟨l1', h4, h5⟩ := ih2 _ (.items _ _ hcs) l2' h3
        exact ⟨l1', .incl _ _ _ _ v more _ h1 h2 h4, h5⟩
      | leave _ hc _ hcs =>
        obtain ⟨kw, more', e, hn⟩ := hc
        rw [e] at h1; cases h1; simp at hn

theorem countAll_filter (P : Str → Bool) (k : Str) (hP : P k = true) (es : List (Entry M)) (t : Option (Pool M)) :
    countAll k es t = countAll k (es.filter (Entry.names P)) t := by
  have key : ∀ (x : Entry M) (ps : List (Posting M)) (t : Option (Pool M)), (∀ p ∈ ps, p.account ≠ k) →
      ps.foldl (countStep k x) t = t := by
    intro x ps
    induction ps with
    | nil => intro _ _; rfl
    | cons p ps ih =>
      intro t hp
      simp only [List.foldl_cons]
      rw [show countStep k x t p = t by simp [countStep, hp p (by simp)]]
      exact ih t fun q hq => hp q (by simp [hq])
  unfold countAll
  induction es generalizing t with
  | nil => rfl
  | cons x es ih =>
    by_cases hx : x.names P = true
    · rw [List.filter_cons_of_pos hx]
      exact ih _
    · rw [List.filter_cons_of_neg hx, List.foldl_cons, key, ih]
      intro p hp hpk
      exact hx (List.any_eq_true.2 ⟨p, hp, by rw [hpk]; exact hP⟩)

/-- **C117.** Leave out, in the journal and in the files it includes, some entries that name none of the accounts
of `P`: the journal still loads; these accounts have the same money and the same envelopes, their entries are the
same, filling would move the same into their envelopes, and the balance report counts the same for them. -/
theorem C117_other_entries_do_not_concern_it (env : Env) (hord : FairOrder env.ord) (w w' : World) (path : Str)
    (P : Str → Bool) (hf : FilesLeaveOut P w.file w'.file) (hc : w'.cwd = w.cwd) (l : Ledger M) (cwd : APath)
    (h : ∃ fuel, Ledger.fromFile env fuel w path = .ok (l, { w with cwd := cwd })) :
    ∃ l' : Ledger M, (∃ fuel, Ledger.fromFile env fuel w' path = .ok (l', { w' with cwd := cwd })) ∧
      l'.accountNames = l.accountNames ∧ l'.dateFormat = l.dateFormat ∧
      (∀ k, P k = true → mapGet l'.accounts k = mapGet l.accounts k) ∧
      (l'.entries.filter fun x => x.postings.any fun p => P p.account) =
        (l.entries.filter fun x => x.postings.any fun p => P p.account) ∧
      (∃ tot tot', l.totals = .ok tot ∧ l'.totals = .ok tot' ∧ ∀ k, P k = true → mapGet tot' k = mapGet tot k) ∧
      ∀ ps ps', Ledger.fillAll env.today (env.ord l.accounts) = .ok ps →
        Ledger.fillAll env.today (env.ord l'.accounts) = .ok ps' → ∀ k, P k = true → ofAccount k ps' = ofAccount k ps := by
  obtain ⟨fuel, h0⟩ := h
  have h := (C88_loading_reads_the_items env w path l cwd).1 ⟨fuel, h0⟩
  obtain ⟨l', h1, h2⟩ := denotes_besides env hord P w.file w'.file hf _ _ _ h _ (.file path) (Ledger.new path)
    ⟨.refl _, new_inv path, new_inv path, fun _ _ => rfl, [], [], ⟨.nil, .nil, fun _ => rfl⟩, ⟨.nil, .nil, fun _ => rfl⟩, rfl⟩
  refine ⟨l', (C88_loading_reads_the_items env w' path l' cwd).2 (by rw [hc]; exact h1), h2.decl.names, h2.decl.format,
    h2.same, h2.named, ?_, ?_⟩
  · obtain ⟨tot, ht⟩ := totals_total l.entries [] h2.inv.blanks
    obtain ⟨tot', ht'⟩ := totals_total l'.entries [] h2.inv'.blanks
    refine ⟨tot, tot', ht, ht', fun k hP => ?_⟩
    rw [C51_exact_rule l tot ht, C51_exact_rule l' tot' ht', countAll_filter P k hP, h2.named, ← countAll_filter P k hP]
  · intro ps ps' hp hp' k hP
    have hsame := h2.same k hP
    have hK : ∀ l : Ledger M, l.Inv → Keyed (env.ord l.accounts) := by
      intro l hl
      refine ⟨((hord _ l.accounts).map Prod.fst).nodup_iff.2 hl.keys, fun j a hm e he => ?_⟩
      have hm := (hord _ l.accounts).mem_iff.1 hm
      rw [(hl.wf j a hm).owner e he, hl.names j a hm]
    cases hg : mapGet l.accounts k with
    | none =>
      have hn : ∀ l : Ledger M, l.Inv → mapGet l.accounts k = none → ∀ ps, Ledger.fillAll env.today (env.ord l.accounts) = .ok ps →
          ofAccount k ps = [] := by
        intro l hl hg ps hp
        refine fillAll_none env.today _ ps hp k ?_ (hK l hl).2
        intro hm
        have hm := ((hord _ l.accounts).map Prod.fst).mem_iff.1 hm
        exact (mapGet_none_iff _ _).1 hg hm
      rw [hn l h2.inv hg ps hp, hn l' h2.inv' (hsame.trans hg) ps' hp']
    | some a =>
      have q := fillAll_ofAccount env.today _ (hK l h2.inv) ps hp k a ((hord _ l.accounts).mem_iff.2 (mapGet_some_mem hg))
      have q' := fillAll_ofAccount env.today _ (hK l' h2.inv') ps' hp' k a
        ((hord _ l'.accounts).mem_iff.2 (mapGet_some_mem (hsame.trans hg)))
      rw [q, Except.ok.injEq] at q'
      exact q'.symm

/-! ### What is printed -/

/-- Specification: the line of the balance report for an account with that money. -/
def balanceLine (k : Str) (pool : Pool M) : Str := padRight 35 k ++ s%"    " ++ Pool.display pool

theorem displayAccounts_infix (today : Date) (accs : List (Str × Account M)) (ks ls : List Str)
    (h : Ledger.displayAccounts today accs ks = .ok ls) (k : Str) (hk : k ∈ ks) :
    ∃ a block, mapGet accs k = some a ∧ a.display today = .ok block ∧ block <:+: ls := by
  induction ks generalizing ls with
  | nil => cases hk
  | cons j ks ih =>
    simp only [Ledger.displayAccounts, bind, Except.bind, pure, Except.pure] at h
    split at h
    · cases h
    · rename_i a ha
      split at h
      · cases h
      · rename_i b hb
        split at h
        · cases h
        · rename_i more hm
          cases h
          rcases List.mem_cons.1 hk with rfl | hk
          · refine ⟨a, b, ?_, hb, ⟨[], more, by simp⟩⟩
            unfold unwrap at ha
            split at ha
            · cases ha; assumption
            · cases ha
          · obtain ⟨a', b', h1, h2, pre, post, h3⟩ := ih more hm hk
            exact ⟨a', b', h1, h2, b ++ pre, post, by simp [← h3]⟩

/-- **C117.** So the two balance reports, when they have a line for such an account, have the same line for it, and
the two envelope reports have the same lines for it. -/
theorem C117_the_reports_say_the_same (env : Env) (hord : FairOrder env.ord) (w w' : World) (path : Str)
    (P : Str → Bool) (hf : FilesLeaveOut P w.file w'.file) (hc : w'.cwd = w.cwd) (l : Ledger M) (cwd : APath)
    (h : ∃ fuel, Ledger.fromFile env fuel w path = .ok (l, { w with cwd := cwd })) :
    ∃ l' : Ledger M, (∃ fuel, Ledger.fromFile env fuel w' path = .ok (l', { w' with cwd := cwd })) ∧
      (∃ (shown shown' : List (Str × Pool M)),
        l.displayBalance env = .ok (shown.map fun p => balanceLine p.1 p.2) ∧
        l'.displayBalance env = .ok (shown'.map fun p => balanceLine p.1 p.2) ∧
        ∀ k, P k = true → ∀ pool, (k, pool) ∈ shown' ↔ (k, pool) ∈ shown) ∧
      ∀ ls ls', l.displayEnvelopes env = .ok ls → l'.displayEnvelopes env = .ok ls' →
        ∀ k ∈ l.accountNames, P k = true →
          ∃ (a : Account M) (block : List Str), mapGet l.accounts k = some a ∧ a.display env.today = .ok block ∧
            block <:+: ls ∧ block <:+: ls' := by
  obtain ⟨l', ⟨fuel, h1⟩, _, _, h2, _, ⟨tot, tot', t1, t2, t3⟩, _⟩ :=
    C117_other_entries_do_not_concern_it env hord w w' path P hf hc l cwd h
  refine ⟨l', ⟨fuel, h1⟩, ?_, ?_⟩
  · have hb : ∀ (l : Ledger M) tot, l.totals = .ok tot → ∃ shown : List (Str × Pool M),
        l.displayBalance env = .ok (shown.map fun p => balanceLine p.1 p.2) ∧ shown.Perm tot := by
      intro l tot ht
      refine ⟨stableSort (fun a b => strLt a.1 b.1) (env.ord tot), ?_, (stableSort_perm _ _).trans (hord _ tot)⟩
      simp only [Ledger.displayBalance, ht, bind, Except.bind, pure, Except.pure]
      rfl
    obtain ⟨s, s1, s2⟩ := hb l tot t1
    obtain ⟨s', s1', s2'⟩ := hb l' tot' t2
    refine ⟨s, s', s1, s1', fun k hP pool => ?_⟩
    have t3 := t3 k hP
    rw [s2.mem_iff, s2'.mem_iff]
    have n1 := totalsLoop_nodup l.entries [] tot t1 (by simp)
    have n2 := totalsLoop_nodup l'.entries [] tot' t2 (by simp)
    constructor
    · intro hm
      have := mapGet_of_mem n2 hm
      rw [t3] at this
      exact mapGet_some_mem this
    · intro hm
      have := mapGet_of_mem n1 hm
      rw [← t3] at this
      exact mapGet_some_mem this
  · intro ls ls' d1 d2 k hk hP
    have h2 := h2 k hP
    unfold Ledger.displayEnvelopes at d1 d2
    have hm : ∀ l : Ledger M, k ∈ l.accountNames → k ∈ stableSort strLt (env.ord l.accountNames) := fun l hk =>
      ((stableSort_perm _ _).trans (hord _ _)).mem_iff.2 hk
    obtain ⟨a, block, e1, e2, e3⟩ := displayAccounts_infix _ _ _ ls d1 k (hm l hk)
    have hk' : k ∈ l'.accountNames := by
      have := mapGet_some_mem (h2.trans e1)
      exact List.mem_map.2 ⟨_, this, rfl⟩
    obtain ⟨a', block', f1, f2, f3⟩ := displayAccounts_infix _ _ _ ls' d2 k (hm l' hk')
    rw [h2, e1] at f1
    cases f1
    rw [e2, Except.ok.injEq] at f2
    subst f2
    exact ⟨a, block, e1, e2, e3, f3⟩

/-- **C117.** And a register of some accounts is the same when entries that name none of them are left out: the same
lines, with the same running totals and the same widths. -/
theorem C117_the_register_is_the_same (env : Env) (hord : FairOrder env.ord) (w w' : World) (path : Str)
    (am : Option Str) (hf : FilesLeaveOut (isFocused am) w.file w'.file) (hc : w'.cwd = w.cwd) (l : Ledger M) (cwd : APath)
    (h : ∃ fuel, Ledger.fromFile env fuel w path = .ok (l, { w with cwd := cwd })) :
    ∃ l' : Ledger M, (∃ fuel, Ledger.fromFile env fuel w' path = .ok (l', { w' with cwd := cwd })) ∧
      ∀ terminal b e, Register.display env terminal l'.entries l'.dateFormat b e am =
        Register.display env terminal l.entries l.dateFormat b e am := by
  obtain ⟨l', h1, _, h2, _, h3, _⟩ :=
    C117_other_entries_do_not_concern_it env hord w w' path (isFocused am) hf hc l cwd h
  refine ⟨l', h1, fun terminal b e => ?_⟩
  have hs : ∀ es : List (Entry M), Register.select es b e am =
      (es.filter fun x => x.postings.any fun p => isFocused am p.account).filter fun x => Register.inRange b e x.date := by
    intro es
    unfold Register.select
    rw [List.filter_filter]
    congr 1
    funext x
    exact Bool.and_comm _ _
  unfold Register.display
  rw [hs, hs, h2, h3]

/-! ### A concrete case -/

/-- A journal of three accounts, one with an envelope, and perhaps an entry between the other two. -/
def exBesideText (other : String) : String :=
  "account x\n  goal trip by 2024/12/18\n    amount 50\naccount y\naccount z\n2024/06/01 * p\n  x 10\n  y\n" ++ other ++
  "2024/06/03 * q\n  x 5\n  y\n  envelope x trip 4\n"

def exBeside (other : String) : World := disk [("j", exBesideText other)]

def exOther : String := "2024/06/02 * between others\n  y 7 ; for x\n  z\n"

theorem exBeside_leaves : FilesLeaveOut (isFocused (some s%"x")) (exBeside exOther).file (exBeside "").file := by
  have hall : ∀ p, ((exBeside exOther).file p = none ∧ (exBeside "").file p = none) ∨
      ((exBeside exOther).file p = some (exBesideText exOther).toList ∧
        (exBeside "").file p = some (exBesideText "").toList) := by
    intro p
    simp only [exBeside, disk]
    split
    · split
      · simp only [List.find?]
        split <;> simp_all
      · exact .inl ⟨rfl, rfl⟩
    · exact .inl ⟨rfl, rfl⟩
  intro p
  rcases hall p with h | ⟨h1, h2⟩
  · exact .inl h
  refine .inr ⟨_, _, [[], s%"account x\n  goal trip by 2024/12/18\n    amount 50", s%"account y", s%"account z",
      s%"2024/06/01 * p\n  x 10\n  y", s%"2024/06/02 * between others\n  y 7 \n  z",
      s%"2024/06/03 * q\n  x 5\n  y\n  envelope x trip 4"],
    [[], s%"account x\n  goal trip by 2024/12/18\n    amount 50", s%"account y", s%"account z",
      s%"2024/06/01 * p\n  x 10\n  y", s%"2024/06/03 * q\n  x 5\n  y\n  envelope x trip 4"], h1, h2,
    ⟨[], [(s%"account x", [s%"  goal trip by 2024/12/18", s%"    amount 50"]), (s%"account y", []), (s%"account z", []),
      (s%"2024/06/01 * p", [s%"  x 10", s%"  y"]), (s%"2024/06/02 * between others", [s%"  y 7 ; for x", s%"  z"]),
      (s%"2024/06/03 * q", [s%"  x 5", s%"  y", s%"  envelope x trip 4"])],
      by decide +kernel, by decide +kernel, ?_, by decide +kernel⟩,
    ⟨[], [(s%"account x", [s%"  goal trip by 2024/12/18", s%"    amount 50"]), (s%"account y", []), (s%"account z", []),
      (s%"2024/06/01 * p", [s%"  x 10", s%"  y"]),
      (s%"2024/06/03 * q", [s%"  x 5", s%"  y", s%"  envelope x trip 4"])],
      by decide +kernel, by decide +kernel, ?_, by decide +kernel⟩,
    .keep _ (.keep _ (.keep _ (.keep _ (.keep _ (.leave _ ⟨s%"2024/06/02", _, rfl, by decide⟩ (by unfold Unnamed; decide +kernel)
      (.keep _ .nil))))))⟩
  all_goals
    intro b hb
    simp only [List.mem_cons, List.not_mem_nil, or_false] at hb
    rcases hb with rfl | rfl | rfl | rfl | rfl | rfl <;> refine ⟨by decide +kernel, _, _, rfl, by decide⟩

example : ∃ p, Ledger.fromFile (stdEnv june15) 9 (exBeside exOther) s%"j" = .ok p ∧
    (p.1.entries : List (Entry Rat)).length = 3 := by decide +kernel

end Silverfox
