import Verif.Props.DateFormat
import Verif.Props.StatementEnvelopes

/-
C147: importing into a journal that writes its dates in another format.
-/

namespace Silverfox

set_option linter.unusedSectionVars false

variable {M : Type} [Mag M]

/-! ### Specification -/

/-- Specification: a line of a rules file that includes no other file and does not go back to the usual format of dates. -/
def KeepsOwn (l : Str) : Prop :=
  ∀ n v, splitRule (removeComments l) = .ok (n, v) → isInclude n = false ∧ (n = s%"date_format" → trim v ≠ s%"-" ∧ v ≠ usualFormat)

/-- Specification: the text of a rules file says, before the first `if`, that the dates of the table are written in a format
that is not the usual one, and does not take that back. -/
def NamesDates (t : Str) : Prop :=
  ∃ before G rest, lines t = before ++ (s%"date_format " ++ G) :: rest ∧ isWord G ∧ NoComment (s%"date_format " ++ G) ∧
    G ∉ [s%"-", usualFormat] ∧ (∀ l ∈ before, startsWith s%"if" (removeComments l) = false) ∧ ∀ l ∈ before ++ rest, KeepsOwn l

/-- The name of the rules file of the table `c`. -/
def rulesName (c : Str) (rules : Option Str) : Str := rules.getD (c ++ s%".rules")

/-- Specification: the table and its rules are other files than the journal `A`, named `p`, and the rules say how the dates of
the table are written. -/
structure OwnDates (w : World) (A : APath) (p c : Str) (rules : Option Str) : Prop where
  table : ∀ cwd, resolve cwd c ≠ A
  apart : ∀ cwd, resolve cwd (rulesName c rules) ≠ A ∧ resolve cwd (rulesName c rules) ≠ resolve cwd p
  named : ∀ cwd t, w.file (resolve cwd (rulesName c rules)) = some t → NamesDates t

/-! ### The rules -/

mutual
/-- Every date of a table is read in a format other than the usual one. -/
def Rules.Own : Rules → Prop
  | .mk v subs => v.dateFormat ≠ usualFormat ∧ SubRules.Own subs
/-- The same for subrules. -/
def SubRules.Own : SubRules → Prop
  | .nil => True
  | .cons _ r rest => Rules.Own r ∧ SubRules.Own rest
end

/-- The same for the rules being read. -/
def Block.Own : Block → Prop
  | .root => True
  | .sub _ r _ => r.Own

theorem push_own (s : SubRules) (ps : List Str) (r : Rules) (hs : s.Own) (hr : r.Own) : (s.push ps r).Own := by
  match s with
  | .nil => exact ⟨hr, trivial⟩
  | .cons q x rest =>
    simp only [SubRules.Own] at hs
    exact ⟨hs.1, push_own rest ps r hs.2 hr⟩

theorem withDefaults_format (v : RuleVals) : v.withDefaults.dateFormat = v.dateFormat := by
  unfold RuleVals.withDefaults
  simp only
  split <;> split <;> rfl

theorem recordPostings_reading (env : Env) (F : Str) (v : RuleVals) (vars : List (Str × Str)) (known : List Str) (as : List (Str × Str)) :
    (recordPostings (env.reading F) v vars known as : Res (List (Posting M))) = recordPostings env v vars known as := by
  induction as with
  | nil => rfl
  | cons a as ih => simp only [recordPostings, ih]; rfl

theorem vals_entry_reading (env : Env) (F : Str) (v : RuleVals) (hv : v.dateFormat ≠ usualFormat) (record known : List Str) :
    (v.entry (env.reading F) record known : Res (Entry M)) = v.entry env record known := by
  have h : ∀ s, (env.reading F).parseDate s v.withDefaults.dateFormat = env.parseDate s v.withDefaults.dateFormat := by
    intro s
    rw [withDefaults_format]
    simp [Env.reading, hv]
  unfold RuleVals.entry
  simp only [h, recordPostings_reading]
  rfl

mutual
theorem rules_entry_reading (env : Env) (F : Str) (record known : List Str) (r : Rules) (hr : r.Own) :
    (r.entry (env.reading F) record known : Res (Entry M)) = r.entry env record known := by
  match r with
  | .mk v subs =>
    simp only [Rules.Own] at hr
    simp only [Rules.entry, subs_entry_reading env F record known subs hr.2, vals_entry_reading env F v hr.1]
theorem subs_entry_reading (env : Env) (F : Str) (record known : List Str) (s : SubRules) (hs : s.Own) :
    (s.entry (env.reading F) record known : Option (Res (Entry M))) = s.entry env record known := by
  match s with
  | .nil => rfl
  | .cons ps r rest =>
    simp only [SubRules.Own] at hs
    simp only [SubRules.entry, subs_entry_reading env F record known rest hs.2, rules_entry_reading env F record known r hs.1]
    rfl
end

/-- The same, the comment being removed. -/
def KeepsOwn' (l : Str) : Prop :=
  ∀ n v, splitRule l = .ok (n, v) → isInclude n = false ∧ (n = s%"date_format" → trim v ≠ s%"-" ∧ v ≠ usualFormat)

theorem reset_format (v v' : RuleVals) (n : Str) (hn : n ≠ s%"date_format") (h : v.reset n = .ok v') : v'.dateFormat = v.dateFormat := by
  unfold RuleVals.reset at h
  rw [if_neg hn] at h
  repeat' split at h
  all_goals first
    | (cases h; rfl)
    | (simp only [fail] at h; cases h)

theorem set_format (v v' : RuleVals) (n x : Str) (h : v.set n x = .ok v') :
    (n ≠ s%"date_format" → v'.dateFormat = v.dateFormat) ∧ (n = s%"date_format" → v'.dateFormat = x) := by
  refine ⟨fun hn => ?_, fun hn => ?_⟩
  · unfold RuleVals.set at h
    rw [if_neg hn] at h
    repeat' split at h
    all_goals first
      | (cases h; rfl)
      | (simp only [fail] at h; cases h)
      | (cases hx : x.head? with
          | none => rw [hx] at h; cases h
          | some c => rw [hx] at h; cases h; rfl)
  · subst hn
    cases h
    rfl

theorem addLine_own (inc inc' : Rules → Str → Res Rules) (r : Rules) (hr : r.Own) (l : Str) (hl : KeepsOwn' l) :
    addLine inc r l = addLine inc' r l ∧ ∀ r', addLine inc r l = .ok r' → r'.Own := by
  unfold addLine
  cases hs : splitRule l with
  | error x => exact ⟨rfl, fun r' h => by cases h⟩
  | ok p =>
    obtain ⟨n, v⟩ := p
    obtain ⟨h1, h2⟩ := hl n v hs
    simp only [bind, Except.bind, h1, Bool.false_eq_true, if_false]
    refine ⟨trivial, fun r' h => ?_⟩
    obtain ⟨vals, subs⟩ := r
    simp only [Rules.Own] at hr
    split at h
    · rename_i hv
      have hn : n ≠ s%"date_format" := fun e => (h2 e).1 hv
      cases hx : vals.reset n with
      | error x => simp only [Rules.vals, hx] at h; cases h
      | ok v' =>
        simp only [Rules.vals, hx, Rules.subs] at h
        cases h
        exact ⟨by rw [reset_format _ _ _ hn hx]; exact hr.1, hr.2⟩
    · cases hx : vals.set n v with
      | error x => simp only [Rules.vals, hx] at h; cases h
      | ok v' =>
        simp only [Rules.vals, hx, Rules.subs] at h
        cases h
        obtain ⟨k1, k2⟩ := set_format _ _ _ _ hx
        by_cases hn : n = s%"date_format"
        · exact ⟨by rw [k2 hn]; exact (h2 hn).2, hr.2⟩
        · exact ⟨by rw [k1 hn]; exact hr.1, hr.2⟩

theorem rootLine_own (inc inc' : Rules → Str → Res Rules) (r : Rules) (hr : r.Own) (l : Str) (hl : KeepsOwn' l) :
    rootLine inc r l = rootLine inc' r l ∧ ∀ x, rootLine inc r l = .ok x → x.1.Own ∧ x.2.Own := by
  unfold rootLine
  split
  · refine ⟨rfl, fun x h => ?_⟩
    unfold openIf at h
    split at h
    · cases h; exact ⟨hr, hr⟩
    · rename_i i hi
      cases hb : bytesDrop (i + 1) l with
      | none => rw [hb] at h; cases h
      | some p => rw [hb] at h; cases h; exact ⟨hr, hr⟩
  · obtain ⟨h1, h2⟩ := addLine_own inc inc' r hr l hl
    rw [h1] at h2 ⊢
    refine ⟨rfl, fun x h => ?_⟩
    cases hx : addLine inc' r l with
    | error e => rw [hx] at h; cases h
    | ok r' => rw [hx] at h; cases h; exact ⟨h2 r' hx, trivial⟩

theorem stepLine_own (inc inc' : Rules → Str → Res Rules) (r : Rules) (hr : r.Own) (b : Block) (hb : b.Own) (l : Str)
    (hl : KeepsOwn l) :
    stepLine inc r b l = stepLine inc' r b l ∧ ∀ x, stepLine inc r b l = .ok x → x.1.Own ∧ x.2.Own := by
  unfold stepLine
  simp only
  split
  · exact ⟨rfl, fun x h => by cases h; exact ⟨hr, hb⟩⟩
  · cases b with
    | root => exact rootLine_own inc inc' r hr _ hl
    | sub ps s inRules =>
      simp only
      split
      · obtain ⟨h1, h2⟩ := addLine_own inc inc' s hb _ hl
        rw [h1] at h2 ⊢
        refine ⟨rfl, fun x h => ?_⟩
        cases hx : addLine inc' s (removeComments l) with
        | error e => rw [hx] at h; cases h
        | ok r' => rw [hx] at h; cases h; exact ⟨hr, h2 r' hx⟩
      · split
        · exact ⟨rfl, fun x h => by cases h; exact ⟨hr, hb⟩⟩
        · obtain ⟨v, subs⟩ := r
          simp only [Rules.Own] at hr
          exact rootLine_own inc inc' (.mk v (subs.push ps s)) ⟨hr.1, push_own subs ps s hr.2 hb⟩ _ hl

theorem addLines_own (inc inc' : Rules → Str → Res Rules) (ls : List Str) (hls : ∀ l ∈ ls, KeepsOwn l) (r : Rules)
    (hr : r.Own) (b : Block) (hb : b.Own) :
    addLines inc ls r b = addLines inc' ls r b ∧ ∀ r', addLines inc ls r b = .ok r' → r'.Own := by
  induction ls generalizing r b with
  | nil =>
    cases b with
    | root => exact ⟨rfl, fun r' h => by cases h; exact hr⟩
    | sub ps s i =>
      refine ⟨rfl, fun r' h => ?_⟩
      cases h
      obtain ⟨v, subs⟩ := r
      simp only [Rules.Own] at hr
      exact ⟨hr.1, push_own subs ps s hr.2 hb⟩
  | cons l ls ih =>
    obtain ⟨h1, h2⟩ := stepLine_own inc inc' r hr b hb l (hls l (by simp))
    simp only [addLines]
    rw [h1] at h2 ⊢
    cases hx : stepLine inc' r b l with
    | error e => exact ⟨rfl, fun r' h => by cases h⟩
    | ok x =>
      obtain ⟨k1, k2⟩ := h2 x hx
      exact ih (fun l' hl' => hls l' (by simp [hl'])) x.1 k1 x.2 k2

/-- The rules of a text need no other file, and have formats other than the usual one. -/
def OwnText (t : Str) : Prop :=
  ∀ inc inc', addLines inc (lines t) Rules.default .root = addLines inc' (lines t) Rules.default .root ∧
    ∀ r, addLines inc (lines t) Rules.default .root = .ok r → r.Own

theorem date_line (inc : Rules → Str → Res Rules) (G : Str) (hG : isWord G) (hnc : NoComment (s%"date_format " ++ G)) (hd : G ≠ s%"-")
    (v : RuleVals) :
    stepLine inc (.mk v .nil) .root (s%"date_format " ++ G) = .ok (.mk { v with dateFormat := G } .nil, .root) := by
  have h0 : removeComments (s%"date_format " ++ G) = s%"date_format " ++ G := (removeComments_eq_rc _).trans ((noComment_iff _).1 hnc)
  obtain ⟨h1, -⟩ := rule_of s%"date_format" G (by decide) (by simp) (word_startsInk hG) (by rw [word_trim hG]; exact hd) v
  have h1 : splitRule (s%"date_format " ++ G) = .ok (s%"date_format", G) := h1
  unfold stepLine
  simp only [h0]
  have h2 : (trim (s%"date_format " ++ G)).isEmpty = false := by
    cases hx : trim (s%"date_format " ++ G) with
    | nil =>
      have := trim_eq_nil.1 hx 'd' (List.mem_append_left _ (by decide))
      exact absurd this (by decide)
    | cons a b => rfl
  rw [h2]
  simp only [Bool.false_eq_true, if_false]
  unfold rootLine
  rw [if_neg (by simp [startsWith])]
  unfold addLine
  rw [h1]
  simp only [bind, Except.bind, word_trim hG, if_neg hd, Rules.vals, Rules.subs]
  rfl

theorem before_own (inc inc' : Rules → Str → Res Rules) (tail : List Str)
    (ht : ∀ v, addLines inc tail (.mk v .nil) .root = addLines inc' tail (.mk v .nil) .root ∧
      ∀ r, addLines inc tail (.mk v .nil) .root = .ok r → r.Own) (before : List Str)
    (hb : ∀ l ∈ before, startsWith s%"if" (removeComments l) = false) (hk : ∀ l ∈ before, KeepsOwn l) (v : RuleVals) :
    addLines inc (before ++ tail) (.mk v .nil) .root = addLines inc' (before ++ tail) (.mk v .nil) .root ∧
      ∀ r, addLines inc (before ++ tail) (.mk v .nil) .root = .ok r → r.Own := by
  induction before generalizing v with
  | nil => exact ht v
  | cons l ls ih =>
    have ih := ih (fun l' hl' => hb l' (by simp [hl'])) (fun l' hl' => hk l' (by simp [hl']))
    have h1 : (∃ e, ∀ inc, stepLine inc (.mk v .nil) .root l = .error e) ∨
        ∃ v', ∀ inc, stepLine inc (.mk v .nil) .root l = .ok (.mk v' .nil, .root) := by
      unfold stepLine
      simp only
      split
      · exact Or.inr ⟨v, fun _ => rfl⟩
      · unfold rootLine
        rw [hb l (by simp)]
        simp only [Bool.false_eq_true, if_false]
        unfold addLine
        cases hs : splitRule (removeComments l) with
        | error x => exact Or.inl ⟨x, fun _ => rfl⟩
        | ok p =>
          obtain ⟨n, x⟩ := p
          obtain ⟨k1, -⟩ := hk l (by simp) n x hs
          simp only [bind, Except.bind, k1, Bool.false_eq_true, if_false, Rules.vals, Rules.subs]
          by_cases hv : trim x = s%"-"
          · simp only [if_pos hv]
            cases hx : v.reset n with
            | error e => exact Or.inl ⟨e, fun _ => rfl⟩
            | ok v' => exact Or.inr ⟨v', fun _ => rfl⟩
          · simp only [if_neg hv]
            cases hx : v.set n x with
            | error e => exact Or.inl ⟨e, fun _ => rfl⟩
            | ok v' => exact Or.inr ⟨v', fun _ => rfl⟩
    simp only [List.cons_append, addLines]
    rcases h1 with ⟨e, h⟩ | ⟨v', h⟩
    · rw [h inc, h inc']
      exact ⟨rfl, fun r hr => by cases hr⟩
    · rw [h inc, h inc']
      exact ih v'

theorem NamesDates.own {t : Str} (h : NamesDates t) : OwnText t := by
  obtain ⟨before, G, rest, h1, h2, h3, h4, h5, h6⟩ := h
  simp only [List.mem_cons, List.not_mem_nil, or_false, not_or] at h4
  intro inc inc'
  rw [h1]
  refine before_own inc inc' _ (fun v => ?_) before h5 (fun l hl => h6 l (by simp [hl])) _
  simp only [addLines, date_line _ G h2 h3 h4.1]
  exact addLines_own inc inc' rest (fun l hl => h6 l (by simp [hl])) (.mk { v with dateFormat := G } .nil) ⟨h4.2, trivial⟩ .root trivial

theorem StatementRules.own {accs cols : List Str} {fmt a b rules : Str} {dec : Char} (h : StatementRules accs cols fmt dec a b rules)
    (hacc : ∀ k ∈ accs, isWord k ∧ NoComment (s%"account " ++ k)) (hf : fmt ≠ usualFormat) : OwnText rules := by
  intro inc inc'
  rw [h.read hacc inc, h.read hacc inc']
  refine ⟨rfl, fun r hr => ?_⟩
  cases hr
  exact ⟨hf, trivial⟩

/-! ### Import -/

section Commands

variable (env : Env) (F : Str) (A : APath)

theorem appendEntry_format (w : World) (l l' : Ledger M) (e : Entry M) (h : (l.appendEntry env w e).2 = .ok l') :
    l'.dateFormat = l.dateFormat := by
  unfold Ledger.appendEntry at h
  split at h
  · cases h
  · split at h
    · cases h
    · split at h
      · cases h
      · exact (addEntry_format _ _ _ _ h).1

theorem importLoop_told (rules : Rules) (hr : rules.Own) (known : List Str) (recs : List (List Str)) (w : World) (l : Ledger M)
    (hd : l.dateFormat = usualFormat) :
    Ledger.importLoop env rules known recs (w.headed A (s%"date_format " ++ F)) ({ l with dateFormat := F } : Ledger M) =
      (((Ledger.importLoop (env.reading F) rules known recs w l).1.headed A (s%"date_format " ++ F)),
        (Ledger.importLoop (env.reading F) rules known recs w l).2.map fun l => { l with dateFormat := F }) := by
  induction recs generalizing w l with
  | nil => rfl
  | cons r rs ih =>
    simp only [Ledger.importLoop, rules_entry_reading env F r known rules hr]
    cases (rules.entry env r known : Res (Entry M)) with
    | error x => rfl
    | ok e =>
      simp only
      rw [appendEntry_told env F A w l hd e]
      have hk := appendEntry_format (env.reading F) w l
      cases hx : l.appendEntry (env.reading F) w e with
      | mk w1 r1 =>
        cases r1 with
        | error x => rfl
        | ok l1 => exact ih w1 l1 (by rw [hk l1 e (by rw [hx])]; exact hd)

theorem headed_read (w : World) (line p : Str) (h : resolve w.cwd p ≠ A) : (w.headed A line).read p = w.read p := by
  unfold World.read
  split
  · simp only [World.headed, if_neg h]
  · rfl

/-- What import needs of the files: table and rules are not the journal, and the rules have formats of their own. -/
def ImportApart (w : World) (A : APath) (c : Str) (rules : Option Str) : Prop :=
  resolve w.cwd c ≠ A ∧ resolve w.cwd (rulesName c rules) ≠ A ∧ ∀ t, w.file (resolve w.cwd (rulesName c rules)) = some t → OwnText t

theorem importer_told (fuel : Nat) (w : World) (c : Str) (rules : Option Str) (h : ImportApart w A c rules) :
    importerFromFile env (w.headed A (s%"date_format " ++ F)) fuel c rules = importerFromFile (env.reading F) w fuel c rules ∧
      ∀ x, importerFromFile (env.reading F) w fuel c rules = .ok x → x.1.Own := by
  obtain ⟨h1, h2, h3⟩ := h
  unfold importerFromFile
  rw [headed_read A w _ c h1]
  cases w.read c with
  | none => exact ⟨rfl, fun x hx => by cases hx⟩
  | some csv =>
    simp only
    rw [show (rules.getD (c ++ s%".rules")) = rulesName c rules from rfl, headed_read A w _ _ h2]
    cases hr : w.read (rulesName c rules) with
    | none => exact ⟨rfl, fun x hx => by cases hx⟩
    | some t =>
      simp only
      have ht : OwnText t := h3 t (by
        unfold World.read at hr
        split at hr
        · exact hr
        · cases hr)
      obtain ⟨k1, k2⟩ := ht (addRulesFile w fuel) (addRulesFile (w.headed A (s%"date_format " ++ F)) fuel)
      unfold importerFromStrs
      rw [← k1]
      refine ⟨rfl, fun x hx => ?_⟩
      cases hy : addLines (addRulesFile w fuel) (lines t) Rules.default .root with
      | error x => rw [hy] at hx; cases hx
      | ok r =>
        rw [hy] at hx
        simp only [bind, Except.bind] at hx
        split at hx
        · cases hx
        · cases hx; exact k2 r hy

theorem importCsv_told (fuel : Nat) (w : World) (l : Ledger M) (hd : l.dateFormat = usualFormat) (c : Str) (rules : Option Str)
    (h : ImportApart w A c rules) :
    Ledger.importCsv env fuel (w.headed A (s%"date_format " ++ F)) ({ l with dateFormat := F } : Ledger M) c rules =
      (((Ledger.importCsv (env.reading F) fuel w l c rules).1.headed A (s%"date_format " ++ F)),
        (Ledger.importCsv (env.reading F) fuel w l c rules).2.map fun l => { l with dateFormat := F }) := by
  obtain ⟨h1, h2⟩ := importer_told env F A fuel w c rules h
  unfold Ledger.importCsv
  rw [h1]
  cases hx : importerFromFile (env.reading F) w fuel c rules with
  | error x => rfl
  | ok x => exact importLoop_told env F A x.1 (h2 x hx) _ x.2 w l hd

theorem runSub_any_told (o : Outside) (f : Flags) (w : World) (l : Ledger M) (hd : l.dateFormat = usualFormat)
    (h : f.sub = .import_ → ∀ c, f.csv = some c → ImportApart w A c f.rules) :
    runSub env o f (w.headed A (s%"date_format " ++ F)) ({ l with dateFormat := F } : Ledger M) =
      ((runSub (env.reading F) o f w l).1.headed A (s%"date_format " ++ F), (runSub (env.reading F) o f w l).2) := by
  by_cases hi : f.sub = .import_
  · unfold runSub
    rw [hi]
    simp only
    cases hc : f.csv with
    | none => rfl
    | some c =>
      simp only
      rw [importCsv_told env F A o.fuel w l hd c f.rules (h hi c hc)]
      cases Ledger.importCsv (env.reading F) o.fuel w l c f.rules with
      | mk w1 r1 => cases r1 <;> rfl
  · exact runSub_told env F A o f hi w l hd

theorem any_command_told (M : Type) [Mag M] (o : Outside) (w : World) (S : APath → Prop) (hw : UsualDates w S)
    (hF : isWord F) (hnc : NoComment (s%"date_format " ++ F)) (hA : S A)
    (hstart : ∀ t, w.file A = some t → StartsItem (lines t)) (args : List Str)
    (hargs : ∀ f, Flags.parse args = .ok (some f) → ∀ p, f.file.or o.file = some p → resolve w.cwd p = A ∧
      (f.sub = .import_ → ∀ c, f.csv = some c → ∀ (l : Ledger M) (w1 : World), Ledger.fromFile (env.reading F) o.fuel w p = .ok (l, w1) →
        resolve w1.cwd c ≠ A ∧
        (resolve w1.cwd (rulesName c f.rules) ≠ A ∧ resolve w1.cwd (rulesName c f.rules) ≠ resolve w1.cwd p) ∧
        ∀ t, w.file (resolve w1.cwd (rulesName c f.rules)) = some t → OwnText t)) :
    mainProgram M env o args (w.headed A (s%"date_format " ++ F)) =
      (((mainProgram M (env.reading F) o args w).1.headed A (s%"date_format " ++ F)),
        (mainProgram M (env.reading F) o args w).2) := by
  unfold mainProgram
  cases hfl : Flags.parse args with
  | error x => rfl
  | ok r =>
    cases r with
    | none => rfl
    | some f =>
      have hpath := hargs f hfl
      simp only
      unfold execute
      cases hfile : f.file.or o.file with
      | none => rfl
      | some path =>
        simp only
        obtain ⟨hpath, himp⟩ := hpath path hfile
        obtain ⟨h1, h2⟩ := fromFile_told (M := M) env F A w S hw hF hnc hstart o.fuel path hA hpath
        rw [h1]
        cases hl : (Ledger.fromFile (env.reading F) o.fuel w path : Res (Ledger M × World)) with
        | error x => rfl
        | ok st =>
          obtain ⟨l, w1⟩ := st
          obtain ⟨hf1, hd⟩ := h2 _ hl
          have hlp : l.filePath = path := (fromFile_sound (env.reading F) _ _ _ _ _ hl).1.choose_spec.filePath.1
          simp only [Except.map, told]
          split
          · refine runSub_any_told env F A o f w1 l hd fun hi c hc => ?_
            obtain ⟨k1, k2, k3⟩ := himp hi c hc l w1 hl
            exact ⟨k1, k2.1, fun t ht => k3 t (by rw [← hf1]; exact ht)⟩
          · rw [fillEnvelopes_told env F A w1 l hd]
            have hk := fill_format (env.reading F) w1 l
            obtain ⟨he, hcwd, -⟩ := fillEnvelopes_extended (env.reading F) w1 l
            cases hx : l.fillEnvelopes (env.reading F) w1 with
            | mk w2 r2 =>
              rw [hx] at hk he hcwd
              cases r2 with
              | error x => rfl
              | ok l2 =>
                refine runSub_any_told env F A o f w2 l2 (by rw [hk l2 rfl]; exact hd) fun hi c hc => ?_
                obtain ⟨k1, k2, k3⟩ := himp hi c hc l w1 hl
                simp only at hcwd he
                rw [← hcwd] at k1 k2 k3
                refine ⟨k1, k2.1, fun t ht => k3 t ?_⟩
                rw [he.others _ (by rw [hlp, ← hcwd]; exact k2.2)] at ht
                rw [← hf1]
                exact ht

/-- **C147** with imports. Importing into such a journal, too, does what it does for the journal without that line and somebody
who takes the usual format for `F`, as long as the rules name the format of the table: that one is read as it is. -/
theorem C147_with_import (M : Type) [Mag M] (env : Env) (o : Outside) (w : World) (S : APath → Prop) (hw : UsualDates w S)
    (F : Str) (hF : isWord F) (hnc : NoComment (s%"date_format " ++ F)) (A : APath) (hA : S A)
    (hstart : ∀ t, w.file A = some t → StartsItem (lines t)) (args : List Str)
    (hargs : ∀ f, Flags.parse args = .ok (some f) → ∀ p, f.file.or o.file = some p → resolve w.cwd p = A ∧
      (f.sub = .import_ → ∀ c, f.csv = some c → OwnDates w A p c f.rules)) :
    mainProgram M env o args (w.headed A (s%"date_format " ++ F)) =
      (((mainProgram M (env.reading F) o args w).1.headed A (s%"date_format " ++ F)),
        (mainProgram M (env.reading F) o args w).2) := by
  refine any_command_told env F A M o w S hw hF hnc hA hstart args fun f hf p hp => ?_
  obtain ⟨h1, h2⟩ := hargs f hf p hp
  refine ⟨h1, fun hi c hc => ?_⟩
  have h3 := h2 hi c hc
  exact fun _ w1 _ => ⟨h3.table _, h3.apart _, fun t ht => (h3.named _ t ht).own⟩

end Commands

/-! ### A bank statement -/

/-- C147 for a bank statement: importing it as in C139 into a journal with envelopes whose first line names the format `F` adds
the rows of the statement, so that the journal is again one with dates in the format `F`. -/
theorem C147_statement (env : Env) (hord : FairOrder env.ord) (o : Outside) (w : World)
    (accs : List DeclAccount) (cols : List Str) (es : List BEntry) (rows : List BankRow) (header : List Str)
    (records : List (List Str)) (F text path csvFile csvText fmt : Str) (dec : Char) (a b rules : Str)
    -- the journal
    (hF : isWord F) (hnc : NoComment (s%"date_format " ++ F))
    (hj : EnvelopeJournal (env.reading F) accs es text) (hf : EnvelopesFit env.today accs (es ++ rows.map (BankRow.byHand a b)))
    (hstart : StartsItem (lines text))
    (hplain : ∀ l ∈ lines text, (splitWs (removeComments l)).head? ∉ [some s%"date_format", some s%"include"])
    (hr : w.read path = some (s%"date_format " ++ F ++ '\n' :: text))
    (happ : w.canAppend (resolve w.cwd path) = true) (hp : path.head? = some '/' ∨ '/' ∉ path)
    -- the command
    (hfuel : o.fuel ≠ 0) (c : Str) (args : List Str) (fs : List Flag) (hc : c.head? = some 'i') (hargs : Spelled fs args)
    (hpath : journalFor o fs = some path) (hn : Flag.noMove ∈ fs) (hcsv : (fs.filterMap Flag.csv?).getLast? = some csvFile)
    -- the statement and the rules
    (hcsvF : resolve (w.cdParent path).cwd csvFile ≠ resolve w.cwd path)
    (hrulesF : resolve (w.cdParent path).cwd (rulesName csvFile (fs.filterMap Flag.rules?).getLast?) ≠ resolve w.cwd path)
    (hread : (w.cdParent path).read csvFile = some csvText) (htable : env.csv csvText = (header :: records).map some)
    (hrules : (w.cdParent path).read (rulesName csvFile (fs.filterMap Flag.rules?).getLast?) = some rules)
    (hsr : StatementRules (accs.map Prod.fst) cols fmt dec a b rules) (hfmt : fmt ≠ usualFormat)
    (hin : List.Forall₂ (fun r record => BankRow.In dec cols record r) rows records) (hok : ∀ r ∈ rows, r.Ok (env.reading F) fmt) :
    ∃ w1 added, mainProgram F64 env o (c :: args) w = (w1, .ok []) ∧
      w1.file (resolve w.cwd path) = some (s%"date_format " ++ F ++ '\n' :: text ++ added) ∧
      (∀ p, p ≠ resolve w.cwd path → w1.file p = w.file p) ∧
      ∃ bs, List.Forall₂ BEntry.Alike bs (rows.map (BankRow.byHand a b)) ∧
        EnvelopeJournal (env.reading F) accs (es ++ bs) (text ++ added) := by
  have hname : endsInName path = true := by
    unfold World.read at hr
    split at hr
    · assumption
    · cases hr
  have hfile : w.file (resolve w.cwd path) = some (s%"date_format " ++ F ++ '\n' :: text) := by
    unfold World.read at hr
    rwa [if_pos hname] at hr
  have hres := resolve_again w path hp hname
  have hw := headed_write w (resolve w.cwd path) (s%"date_format " ++ F) text hfile
  have hr' : (w.write (resolve w.cwd path) text).read path = some text := by
    unfold World.read
    rw [if_pos hname]
    simp [World.write]
  have off : ∀ q t, resolve (w.cdParent path).cwd q ≠ resolve w.cwd path → (w.cdParent path).read q = some t →
      ((w.write (resolve w.cwd path) text).cdParent path).read q = some t := by
    intro q t hq ht
    unfold World.read at ht ⊢
    split at ht
    · rename_i hqn
      rw [if_pos hqn, ← ht]
      show (if resolve (w.cdParent path).cwd q = resolve w.cwd path then some text else w.file (resolve (w.cdParent path).cwd q)) = _
      rw [if_neg hq]
      rfl
    · cases ht
  have hfes : EnvelopesFit env.today accs es := ⟨hf.today, hf.schedule, fun p hp x hx e he => hf.named p hp x hx e (by simp [he]),
    fun p hp x hx e he => hf.spent p hp x hx e (by simp [he])⟩
  obtain ⟨fuel, hfu⟩ := Nat.exists_eq_succ_of_ne_zero hfuel
  obtain ⟨xs, l, l1, l2, l3, l4⟩ := hj.loads (M := F64) (env := env.reading F) hord hfes fuel _ path hr'
  obtain ⟨w1, added, k1, k2, k3, k4, -⟩ := C139_statement_beside_envelopes (env.reading F) hord env.today o o
    (w.write (resolve w.cwd path) text) accs cols es rows header records text path csvFile csvText fmt dec a b rules hj hf hr' happ hp
    hfuel c args fs hc hargs hpath hn hcsv (off _ _ hcsvF hread) htable (off _ _ hrulesF hrules) hsr hin hok hf.today hfuel
  have main := any_command_told env F (resolve w.cwd path) F64 o (w.write (resolve w.cwd path) text) (fun p => p = resolve w.cwd path)
    ⟨?_, ?_⟩ hF hnc rfl ?_ (c :: args) ?_
  · rw [hw, k1] at main
    refine ⟨_, added, main, ?_, fun p hp => ?_, k4⟩
    · have k2 : w1.file (resolve w.cwd path) = some (text ++ added) := k2
      simp only [World.headed, if_true, k2, Option.map_some]
      simp
    · simp only [World.headed, if_neg hp, k3 p hp]
      simp [World.write, hp]
  · rintro p t rfl ht l hl e
    simp only [World.write, if_true, Option.some.injEq] at ht
    subst ht
    exact hplain l hl (by rw [e]; simp)
  · rintro p t rfl ht l hl r e
    simp only [World.write, if_true, Option.some.injEq] at ht
    subst ht
    exact absurd (by rw [e]; simp) (hplain l hl)
  · intro t ht
    simp only [World.write, if_true, Option.some.injEq] at ht
    subst ht
    exact hstart
  · intro f hfl p hpf
    obtain ⟨k, fs', h1, h2, rfl⟩ := (C75_command_line_iff c args f).1 hfl
    have h3 := (C75_command_line_iff c args (flagsOf .import_ fs)).2 ⟨.import_, fs, hc, hargs, rfl⟩
    rw [hfl] at h3
    simp only [Except.ok.injEq, Option.some.injEq] at h3
    rw [h3] at hpf ⊢
    rw [journalFor_eq, hpath] at hpf
    cases hpf
    refine ⟨rfl, fun _ c' hc' l' w' hl' => ?_⟩
    have e1 : c' = csvFile := by
      have : (fs.filterMap Flag.csv?).getLast? = some c' := hc'
      rw [hcsv] at this
      exact (Option.some.inj this).symm
    subst e1
    rw [hfu, l4] at hl'
    cases hl'
    refine ⟨hcsvF, ⟨hrulesF, ?_⟩, fun t ht => ?_⟩
    · rw [show resolve ((w.write (resolve w.cwd path) text).cdParent path).cwd path = resolve w.cwd path from hres]
      exact hrulesF
    · have : t = rules := by
        have h4 := off _ _ hrulesF hrules
        unfold World.read at h4
        split at h4
        · exact Option.some.inj (ht.symm.trans h4)
        · cases h4
      subst this
      exact hsr.own hj.account_lines hfmt

def exDotMarketDisk : World := disk [("j", String.ofList (s%"date_format " ++ exDotFormat ++ '\n' :: exDotText)),
  ("b.csv", String.ofList exMarketStatement), ("b.csv.rules", String.ofList exMarketRules)]

/-- The statement of C139 and its rules, and the journal of C134 with its dates written as in Germany, meet the conditions. (The
journal itself: see C147_envelope_report.) -/
example : EnvelopesFit june15 exDotAccounts (exDotEntries ++ [exMarket].map (BankRow.byHand s%"bank" s%"shop")) ∧
    exDotMarketDisk.read s%"j" = some (s%"date_format " ++ exDotFormat ++ '\n' :: exDotText) ∧
    exDotMarketDisk.canAppend (resolve exDotMarketDisk.cwd s%"j") = true ∧
    resolve (exDotMarketDisk.cdParent s%"j").cwd s%"b.csv" ≠ resolve exDotMarketDisk.cwd s%"j" ∧
    resolve (exDotMarketDisk.cdParent s%"j").cwd (rulesName s%"b.csv" none) ≠ resolve exDotMarketDisk.cwd s%"j" ∧
    (exDotMarketDisk.cdParent s%"j").read s%"b.csv" = some exMarketStatement ∧
    (exDotMarketDisk.cdParent s%"j").read (rulesName s%"b.csv" none) = some exMarketRules ∧
    s%"%Y-%m-%d" ≠ usualFormat ∧ NamesDates exMarketRules ∧
    ∀ r ∈ [exMarket], r.Ok ((stdEnv june15).reading exDotFormat) s%"%Y-%m-%d" := by
  refine ⟨⟨exTrip_fits.today, exDot_schedule, by decide +kernel, by decide +kernel⟩, by decide +kernel, by decide +kernel,
    by decide, by decide, by decide +kernel, by decide +kernel, by decide, ?_, ?_⟩
  · refine ⟨[s%"fields date,description,amount", []], s%"%Y-%m-%d",
      [s%"account1 bank", s%"amount1 %amount%", s%"account2 shop"], by decide +kernel, by decide, by decide, by decide, by decide, ?_⟩
    intro l hl n v hs
    simp only [List.mem_append, List.mem_cons, List.not_mem_nil, or_false] at hl
    rcases hl with (rfl | rfl) | rfl | rfl | rfl
    · have h : splitRule (removeComments s%"fields date,description,amount") = .ok (s%"fields", s%"date,description,amount") := by decide
      rw [h] at hs; cases hs; decide
    · have h : splitRule (removeComments []) = fail .parse := by decide
      rw [h] at hs; cases hs
    · have h : splitRule (removeComments s%"account1 bank") = .ok (s%"account1", s%"bank") := by decide
      rw [h] at hs; cases hs; decide
    · have h : splitRule (removeComments s%"amount1 %amount%") = .ok (s%"amount1", s%"%amount%") := by decide
      rw [h] at hs; cases hs; decide
    · have h : splitRule (removeComments s%"account2 shop") = .ok (s%"account2", s%"shop") := by decide
      rw [h] at hs; cases hs; decide
  · have hd : ValidSymbol '.' s%"$" := by decide
    have a1 : WrittenAmount s%"$-6.50" (-13 / 2) (some s%"$") :=
      ⟨s%"-6.50", true, 650, 2, ⟨s%"6", s%"50", by decide, by decide, by decide, by decide, by decide, by decide⟩,
        by norm_num, Or.inr ⟨_, rfl, hd, by decide⟩⟩
    intro r hr
    simp only [List.mem_cons, List.not_mem_nil, or_false] at hr
    subst hr
    exact ⟨by decide +kernel, ⟨s%"14.06.2024", by decide +kernel, by decide +kernel, ⟨by decide, by decide⟩, by decide⟩, by decide +kernel, a1,
      by decide +kernel, by decide +kernel, ⟨-650000000, by norm_num [exMarket], by decide⟩⟩

/-- The row is added with its date in the format of the journal. -/
example : (mainProgram F64 (stdEnv june15) exOutside [s%"import", s%"-f", s%"j", s%"--csv", s%"b.csv", s%"-n"] exDotMarketDisk).1.file
      [s%"h", s%"j"] = some (s%"date_format %d.%m.%Y\n" ++ exDotText ++
      s%"\n14.06.2024 ~ market\n    shop                                               \n    bank                                               $-6.5\n") := by
  decide +kernel

end Silverfox
