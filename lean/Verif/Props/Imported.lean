import Verif.Props.Records
import Mathlib.Data.List.Forall2

/-
C95: what the entry of an imported record says.
-/

namespace Silverfox

set_option linter.unusedSectionVars false
variable {M : Type} [Mag M]

/-! ### Specification -/

/-- Specification: the columns of a record have names, all different, and no percent signs. -/
structure GoodColumns (cols : List (Str × Str)) : Prop where
  distinct : (cols.map Prod.fst).Nodup
  clean : ∀ p ∈ cols, Clean p.1 ∧ p.1 ≠ [] ∧ Clean p.2

/-- The value in the column of that name. -/
def valueIn (cols : List (Str × Str)) (n : Str) : Str := ((cols.filter fun p => p.1 = n).map Prod.snd).headD []

/-- Specification: with these columns the template says this text: names between percent signs are columns and stand
for their values, `%%` stands for a percent sign, and nothing can be mixed up with a name. -/
def Says (cols : List (Str × Str)) (template text : Str) : Prop :=
  ∃ segs, template = render segs ∧ (∀ s, .text s ∈ segs → Clean s) ∧ (∀ m, .var m ∈ segs → m ∈ cols.map Prod.fst) ∧
    NoMixUp cols (valueIn cols) segs ∧ text = meant (valueIn cols) segs

/-- Specification: the same for a text that may be left out. -/
def SaysPerhaps (cols : List (Str × Str)) (template : Str) (text : Option Str) : Prop :=
  ((∀ c ∈ template, isWs c = true) ∧ text = none) ∨
    ((∃ c ∈ template, isWs c = false) ∧ ∃ t, Says cols template t ∧ text = some t)

/-- Specification: the signs of the states of an entry. -/
inductive StatusSign : Str → Status → Prop
  | pending : StatusSign s%"?" .pending
  | cleared : StatusSign s%"~" .cleared
  | reconciled : StatusSign s%"*" .reconciled

/-- Specification: without rules for accounts there is one, which takes the account of the record. -/
def accountRules (v : RuleVals) : List (Str × Str) :=
  match v.accounts with
  | [] => [([], s%"%account%")]
  | as => as

/-- Specification: without rules for amounts there is one. -/
def amountRules (v : RuleVals) : List (Str × Str) :=
  match v.amounts with
  | [] => [([], s%"%amount%")]
  | as => as

/-- Specification: the posting that the rule `account<i>` makes, with the rule `amount<i>` if there is one. -/
def PostingMade (v : RuleVals) (cols : List (Str × Str)) (known : List Str) (rule : Str × Str) (p : Posting M) : Prop :=
  ∃ template text, ((∃ a, (rule.1, a) ∈ amountRules v ∧ template = rule.2 ++ s%" " ++ a) ∨
      (rule.1 ∉ (amountRules v).map Prod.fst ∧ template = rule.2)) ∧
    Says cols template text ∧ Posting.parse text v.decimal known = .ok p

/-- Specification: the postings of the entry: those made by the rules, and for a single one the other half. -/
inductive Completed (ps : List (Posting M)) : List (Posting M) → Prop
  | enough : 2 ≤ ps.length → Completed ps ps
  | other (p : Posting M) (a : Amount M) (acc : Str) : ps = [p] → p.amount = some a → OtherHalf a.mag acc →
      Completed ps [p, .classic ⟨acc, none, none, none⟩]

/-! ### Proof -/

theorem recordVars_nodup (cols : List (Str × Str)) : ∀ vs : List (Str × Str), ((vs ++ cols).map Prod.fst).Nodup →
    recordVars cols vs = .ok (vs ++ cols) := by
  induction cols with
  | nil => intro vs _; simp [recordVars]
  | cons c cols ih =>
    intro vs h
    obtain ⟨n, x⟩ := c
    have hn : ∀ p ∈ vs, p.1 ≠ n := by
      intro p hp he
      rw [List.map_append, List.nodup_append] at h
      exact h.2.2 p.1 (List.mem_map.2 ⟨p, hp, rfl⟩) n (by simp) he
    have hi : mapInsert vs n x = vs ++ [(n, x)] := by
      clear ih h
      induction vs with
      | nil => rfl
      | cons q vs ih =>
        simp only [mapInsert]
        rw [if_neg (hn q (by simp)), ih fun p hp => hn p (by simp [hp])]
        rfl
    simp only [recordVars]
    rw [if_neg (by simp only [List.any_eq_true, beq_iff_eq, not_exists, not_and]; exact hn), hi, ih _ (by simpa using h)]
    simp

theorem valueIn_mem {cols : List (Str × Str)} (h : (cols.map Prod.fst).Nodup) {p : Str × Str} (hp : p ∈ cols) :
    valueIn cols p.1 = p.2 := by
  unfold valueIn
  induction cols with
  | nil => cases hp
  | cons q cols ih =>
    rw [List.map_cons, List.nodup_cons] at h
    rcases List.mem_cons.1 hp with rfl | hp
    · simp
    · have : q.1 ≠ p.1 := fun he => h.1 (he ▸ List.mem_map.2 ⟨p, hp, rfl⟩)
      simp only [List.filter_cons, this, decide_false, Bool.false_eq_true, if_false]
      exact ih h.2 hp

theorem Says.inject {cols : List (Str × Str)} (hc : GoodColumns cols) (env : Env) (ho : (env.ord cols).Perm cols)
    {t s : Str} (h : Says cols t s) : Silverfox.inject env cols t = s := by
  obtain ⟨segs, rfl, h1, h2, h3, rfl⟩ := h
  exact C67_variables_partial env cols (valueIn cols) segs (fun p => ho.mem_iff)
    (fun p hp => ⟨(hc.clean p hp).1, (hc.clean p hp).2.1, (hc.clean p hp).2.2, valueIn_mem hc.distinct hp⟩) h1 h2 h3

theorem SaysPerhaps.inject {cols : List (Str × Str)} (hc : GoodColumns cols) (env : Env) (ho : (env.ord cols).Perm cols)
    {t : Str} {s : Option Str} (h : SaysPerhaps cols t s) :
    (if (trim t).isEmpty then none else some (Silverfox.inject env cols t)) = s := by
  rcases h with ⟨h1, rfl⟩ | ⟨⟨c, h1, h2⟩, x, h3, rfl⟩
  · rw [if_pos]
    rw [List.isEmpty_iff]
    exact trim_eq_nil.2 h1
  · rw [if_neg, h3.inject hc env ho]
    rw [List.isEmpty_iff]
    intro he
    have := trim_eq_nil.1 he c h1
    rw [h2] at this; cases this

theorem mapGet_mem_nodup {α : Type} {m : List (Str × α)} (h : (m.map Prod.fst).Nodup) {k : Str} {x : α} (hm : (k, x) ∈ m) :
    mapGet m k = some x := by
  unfold mapGet
  induction m with
  | nil => cases hm
  | cons q m ih =>
    rw [List.map_cons, List.nodup_cons] at h
    rcases List.mem_cons.1 hm with rfl | hm
    · simp
    · have : q.1 ≠ k := fun he => h.1 (he ▸ List.mem_map.2 ⟨_, hm, rfl⟩)
      simp [this]
      simpa using ih h.2 hm

theorem mapGet_not_mem {α : Type} {m : List (Str × α)} {k : Str} (h : k ∉ m.map Prod.fst) : mapGet m k = none := by
  unfold mapGet
  rw [List.find?_eq_none.2]
  · rfl
  · intro p hp he
    exact h (by rw [← (by simpa using he : p.1 = k)]; exact List.mem_map.2 ⟨p, hp, rfl⟩)

theorem withDefaults_accounts (v : RuleVals) : v.withDefaults.accounts = accountRules v := by
  unfold RuleVals.withDefaults accountRules
  cases h : v.accounts <;> simp <;> split <;> simp [h]

theorem withDefaults_amounts (v : RuleVals) : v.withDefaults.amounts = amountRules v := by
  unfold RuleVals.withDefaults amountRules
  cases h : v.amounts <;> cases h' : v.accounts <;> simp [h]

theorem withDefaults_others (v : RuleVals) : v.withDefaults.dateStr = v.dateStr ∧ v.withDefaults.dateFormat = v.dateFormat ∧
    v.withDefaults.description = v.description ∧ v.withDefaults.status = v.status ∧ v.withDefaults.payee = v.payee ∧
    v.withDefaults.comment = v.comment ∧ v.withDefaults.fields = v.fields ∧ v.withDefaults.decimal = v.decimal := by
  unfold RuleVals.withDefaults
  split <;> simp only <;> split <;> simp

theorem recordPostings_made (env : Env) (v : RuleVals) (cols : List (Str × Str)) (known : List Str)
    (hc : GoodColumns cols) (ho : (env.ord cols).Perm cols) (ham : ((amountRules v).map Prod.fst).Nodup)
    (rules : List (Str × Str)) (ps : List (Posting M)) (h : List.Forall₂ (PostingMade v cols known) rules ps) :
    recordPostings env v.withDefaults cols known rules = .ok ps := by
  induction h with
  | nil => rfl
  | @cons r p rs ps hx _ ih =>
    obtain ⟨i, acc⟩ := r
    obtain ⟨t, text, h1, h2, h3⟩ := hx
    have ht : rawPosting v.withDefaults.amounts i acc = t := by
      unfold rawPosting
      rw [withDefaults_amounts]
      rcases h1 with ⟨a, ha, rfl⟩ | ⟨ha, rfl⟩
      · rw [mapGet_mem_nodup ham ha]; simp
      · rw [mapGet_not_mem ha]
    simp only [recordPostings, bind, Except.bind, pure, Except.pure, ht, h2.inject hc env ho,
      (withDefaults_others v).2.2.2.2.2.2.2, h3, ih]

theorem StatusSign.parse {s : Str} {st : Status} (h : StatusSign s st) : Status.parse s = .ok st := by
  cases h <;> decide

theorem Completed.complete {ps qs : List (Posting M)} (h : Completed ps qs) : completePostings ps = .ok qs := by
  cases h with
  | enough h =>
    match ps, h with
    | _ :: _ :: _, _ => rfl
  | other p a acc h1 h2 h3 =>
    subst h1
    have : unknownAccount a.mag = acc := by
      unfold unknownAccount
      split
      · exact (h3.1 ‹_›).symm
      · rename_i hn
        split
        · exact (h3.2.1 (by simpa using hn) ‹_›).symm
        · rename_i hn'; exact (h3.2.2 (by simpa using hn) (by simpa using hn')).symm
    simp [completePostings, h2, this]

/-! ### C95 -/

/-- **C95.** The entry of a record says what the rules say with the values of the record: the date, the description,
the state, the payee and the comment are those of their rules, and there is a posting for each account rule, with the
amount of the rule of the same number; a single posting is given its other half. The postings may come in any order. -/
theorem C95_record (env : Env) (v : RuleVals) (record known : List Str)
    (ho : ∀ l : List (Str × Str), (env.ord l).Perm l) (hc : GoodColumns (v.fields.zip record))
    (ham : ((amountRules v).map Prod.fst).Nodup)
    (ds : Str) (date : Date) (hds : Says (v.fields.zip record) v.dateStr ds) (hd : env.parseDate ds v.dateFormat = some date)
    (de : Str) (hde : Says (v.fields.zip record) v.description de)
    (ss : Str) (st : Status) (hss : Says (v.fields.zip record) v.status ss) (hst : StatusSign ss st)
    (payee comment : Option Str) (hp : SaysPerhaps (v.fields.zip record) v.payee payee)
    (hco : SaysPerhaps (v.fields.zip record) v.comment comment)
    (ps qs : List (Posting M)) (hps : List.Forall₂ (PostingMade v (v.fields.zip record) known) (accountRules v) ps)
    (hqs : Completed ps qs) :
    ∃ e : Entry M, v.entry env record known = .ok e ∧ e.date = date ∧ e.description = de ∧ e.status = st ∧
      e.payee = payee ∧ e.comment = (if comment = some [] then none else comment) ∧ e.postings.Perm qs := by
  obtain ⟨w1, w2, w3, w4, w5, w6, w7, w8⟩ := withDefaults_others v
  have hv := recordVars_nodup (v.fields.zip record) [] (by simpa using hc.distinct)
  rw [List.nil_append] at hv
  have h1 := recordPostings_made env v _ known hc (ho _) ham _ _ hps
  obtain ⟨ps', h2, h3⟩ := recordPostings_perm env v.withDefaults (v.fields.zip record) known (ho (accountRules v)).symm ps h1
  obtain ⟨qs', h4, h5⟩ := completePostings_perm (h3.trans (List.reverse_perm ps').symm) qs hqs.complete
  refine ⟨Entry.new date st de payee qs' comment, ?_, rfl, rfl, rfl, rfl, rfl, h5.symm⟩
  unfold RuleVals.entry
  simp only [bind, Except.bind, w1, w2, w3, w4, w5, w6, w7, hv, hds.inject hc env (ho _), hd, hde.inject hc env (ho _),
    hss.inject hc env (ho _), hst.parse, withDefaults_accounts, h2, h4, pure, Except.pure]
  have h6 := hp.inject hc env (ho _)
  have h7 := hco.inject hc env (ho _)
  rw [h6, h7]

/-- **C95, rules that name a column twice.** No record of theirs that reaches the second one gives an entry. -/
theorem C95_column_named_twice (env : Env) (v : RuleVals) (record known : List Str)
    (h : ¬ ((v.fields.zip record).map Prod.fst).Nodup) :
    (v.entry env record known : Res (Entry M)) = fail .parse := by
  have key : ∀ (cols vs : List (Str × Str)), (vs.map Prod.fst).Nodup → ¬ ((vs ++ cols).map Prod.fst).Nodup →
      recordVars cols vs = fail .parse := by
    intro cols
    induction cols with
    | nil => intro vs h1 h2; rw [List.append_nil] at h2; exact absurd h1 h2
    | cons c cols ih =>
      intro vs h1 h2
      obtain ⟨n, x⟩ := c
      rw [recordVars]
      by_cases hn : ∀ p ∈ vs, p.1 ≠ n
      · rw [if_neg (by simp only [List.any_eq_true, beq_iff_eq, not_exists, not_and]; exact hn)]
        have hi : mapInsert vs n x = vs ++ [(n, x)] := by
          clear ih h1 h2
          induction vs with
          | nil => rfl
          | cons p vs ih =>
            obtain ⟨m, y⟩ := p
            have : m ≠ n := hn (m, y) (by simp)
            simp only [mapInsert, List.cons_append]
            rw [if_neg (by simpa using this), ih (fun p hp => hn p (by simp [hp]))]
        rw [hi]
        refine ih _ ?_ (by simpa using h2)
        rw [List.map_append, List.nodup_append]
        refine ⟨h1, by simp, ?_⟩
        intro a ha b hb e
        obtain ⟨p, hp, rfl⟩ := List.mem_map.mp ha
        simp only [List.map_cons, List.map_nil, List.mem_singleton] at hb
        exact hn p hp (e.trans hb)
      · rw [if_pos]
        simp only [List.any_eq_true, beq_iff_eq]
        simpa using hn
  unfold RuleVals.entry
  simp only [bind, Except.bind, (withDefaults_others v).2.2.2.2.2.2.1, key _ [] (by simp) (by simpa using h)]
  rfl

/-! ### A concrete case -/

/-- A check that is enough for `Says`. -/
def saysCheck (cols : List (Str × Str)) (segs : List Seg) : Bool :=
  segs.all (fun
    | .text s => s.all fun c => c != '%'
    | .var m => cols.any fun p => p.1 == m
    | .percent => true) && !mixUps cols (valueIn cols) segs

theorem says_of (cols : List (Str × Str)) (segs : List Seg) (template text : Str) (h : saysCheck cols segs = true)
    (h1 : template = render segs) (h2 : text = meant (valueIn cols) segs) : Says cols template text := by
  unfold saysCheck at h
  simp only [Bool.and_eq_true, List.all_eq_true, Bool.not_eq_true'] at h
  refine ⟨segs, h1, ?_, ?_, noMixUp_of _ _ _ (by simpa using h.2), h2⟩
  · intro s hs
    have := h.1 _ hs
    unfold Clean
    intro hc
    have := List.all_eq_true.mp this '%' hc
    simp at this
  · intro m hm
    have := h.1 _ hm
    simp only [List.any_eq_true, beq_iff_eq] at this
    obtain ⟨p, hp, rfl⟩ := this
    exact List.mem_map.mpr ⟨p, hp, rfl⟩

def shopRules : RuleVals :=
  { RuleVals.default with
    accounts := [(s%"1", s%"assets:bank"), (s%"2", s%"expenses:%kind%")]
    amounts := [(s%"1", s%"-%amount%")]
    payee := s%"%shop% (%town%)"
    comment := s%"%rate%%% off"
    fields := [s%"date", s%"description", s%"amount", s%"shop", s%"town", s%"kind", s%"rate"] }

def shopRecord : List Str := [s%"2024/06/01", s%"Lunch", s%"8", s%"Deli", s%"Bath", s%"food", s%"10"]

def shopKnown : List Str := [s%"assets:bank", s%"expenses:food"]

def shopPostings : List (Posting Rat) :=
  [.classic ⟨s%"assets:bank", some ⟨-8, none⟩, none, none⟩, .classic ⟨s%"expenses:food", none, none, none⟩]

/-- The conditions of `C95_record` hold of these rules and this record, and the entry says what is expected. -/
example : ∃ e : Entry Rat, shopRules.entry backwards shopRecord shopKnown = .ok e ∧ e.date = ⟨2024, 6, 1, by decide⟩ ∧
    e.description = s%"Lunch" ∧ e.status = .cleared ∧ e.payee = some s%"Deli (Bath)" ∧ e.comment = some s%"10% off" ∧
    e.postings.Perm shopPostings :=
  C95_record backwards shopRules shopRecord shopKnown (fun l => List.reverse_perm l)
    ⟨by decide, by unfold Clean; decide⟩ (by decide)
    s%"2024/06/01" ⟨2024, 6, 1, by decide⟩ (says_of _ [.var s%"date"] _ _ (by decide) (by decide) (by decide))
    (by decide +kernel)
    s%"Lunch" (says_of _ [.var s%"description"] _ _ (by decide) (by decide) (by decide))
    s%"~" .cleared (says_of _ [.text s%"~"] _ _ (by decide) (by decide) (by decide)) .cleared
    (some s%"Deli (Bath)") (some s%"10% off")
    (.inr ⟨by decide, s%"Deli (Bath)",
      says_of _ [.var s%"shop", .text s%" (", .var s%"town", .text s%")"] _ _ (by decide) (by decide) (by decide), rfl⟩)
    (.inr ⟨by decide, s%"10% off",
      says_of _ [.var s%"rate", .percent, .text s%" off"] _ _ (by decide) (by decide) (by decide), rfl⟩)
    shopPostings shopPostings
    (.cons ⟨s%"assets:bank -%amount%", s%"assets:bank -8", .inl ⟨s%"-%amount%", by decide, by decide⟩,
        says_of _ [.text s%"assets:bank -", .var s%"amount"] _ _ (by decide) (by decide) (by decide), by decide +kernel⟩
      (.cons ⟨s%"expenses:%kind%", s%"expenses:food", .inr ⟨by decide, by decide⟩,
        says_of _ [.text s%"expenses:", .var s%"kind"] _ _ (by decide) (by decide) (by decide), by decide +kernel⟩ .nil))
    (.enough (by decide))

example : ({ shopRules with fields := [s%"date", s%"amount", s%"date"] } : RuleVals).entry forwards shopRecord shopKnown =
    (fail .parse : Res (Entry F64)) := C95_column_named_twice _ _ _ _ (by decide)

end Silverfox
