import Verif.Model.Importer
import Verif.Codec
import Verif.Proofs.Check
import Verif.Proofs.Strings

/-
Rule files for importing: which rules decide about a record (C63), what a pattern matches (C64), which
of several values counts (C65), what an `if` block inherits (C66).
-/

namespace Silverfox

set_option linter.unusedSectionVars false

/-! ### The shape of a rule file -/

/-- A rule file as its author sees it: single rules, and `if` blocks. A block has an optional pattern
beside the `if`, further patterns on lines of their own, and indented rules. -/
inductive RuleItem where
  | rule (line : Str)
  | block (first : Option Str) (more : List Str) (body : List Str)

/-- The rule on this line is not an `include` (or `use`). -/
def NotInclude (l : Str) : Prop := ∀ n v, splitRule l = .ok (n, v) → isInclude n = false

/-- The line opening a block. -/
def ifLine : Option Str → Str
  | none => s%"if"
  | some p => s%"if " ++ p

def RuleItem.lines : RuleItem → List Str
  | .rule l => [l]
  | .block f more body => ifLine f :: (more ++ body)

/-- Single rules begin in the first column and not with `if`; a block has at least one rule; patterns
begin in the first column, the rules of a block do not. -/
def RuleItem.Wf : RuleItem → Prop
  | .rule l => startsInk l = true ∧ startsWith s%"if" l = false ∧ NotInclude l
  | .block _ more body =>
    (∀ l ∈ more, startsInk l = true) ∧ body ≠ [] ∧
    ∀ l ∈ body, startsInk l = false ∧ NotInclude l

/-- What matters of a rule file: lines without comments, blank ones left out. -/
def ruleLines (ls : List Str) : List Str :=
  (ls.map removeComments).filter fun l => !(trim l).isEmpty

/-- What one rule does to the values. -/
def applyRule (v : RuleVals) (line : Str) : Res RuleVals := do
  let (name, value) ← splitRule line
  if trim value = s%"-" then v.reset name else v.set name value

def applyRules : RuleVals → List Str → Res RuleVals
  | v, [] => .ok v
  | v, l :: ls => do
    let v ← applyRule v l
    applyRules v ls

/-- The intended meaning of a rule file: the values at root level, and for every `if` block its patterns
and values. A block starts from the values set above it. -/
def meaning : List RuleItem → RuleVals → List (List Str × RuleVals) →
    Res (RuleVals × List (List Str × RuleVals))
  | [], v, bs => .ok (v, bs)
  | .rule l :: is, v, bs => do
    let v ← applyRule v l
    meaning is v bs
  | .block f more body :: is, v, bs => do
    let bv ← applyRules v body
    meaning is v (bs ++ [(f.toList ++ more, bv)])

/-- The blocks found by the program: their patterns and values. -/
def SubRules.blocks : SubRules → List (List Str × RuleVals)
  | .nil => []
  | .cons ps r rest => (ps, r.vals) :: rest.blocks

/-! ### Reading the lines -/

/-- `stepLine` on a line without comment that is not blank. -/
def stepInk (inc : Rules → Str → Res Rules) (r : Rules) (b : Block) (l : Str) :
    Res (Rules × Block) :=
  match b with
    | .sub ps s inRules =>
      if !startsInk l then do
        let s ← addLine inc s l
        pure (r, .sub ps s true)
      else if !inRules then .ok (r, .sub (ps ++ [l]) s false)
      else rootLine inc (.mk r.vals (r.subs.push ps s)) l
    | .root => rootLine inc r l

def runInk (inc : Rules → Str → Res Rules) : List Str → Rules → Block → Res Rules
  | [], r, .root => .ok r
  | [], r, .sub ps s _ => .ok (.mk r.vals (r.subs.push ps s))
  | l :: ls, r, b => do
    let (r, b) ← stepInk inc r b l
    runInk inc ls r b

theorem addLines_ink (inc : Rules → Str → Res Rules) : ∀ (ls : List Str) (r : Rules) (b : Block),
    addLines inc ls r b = runInk inc (ruleLines ls) r b
  | [], r, .root => rfl
  | [], r, .sub _ _ _ => rfl
  | l :: ls, r, b => by
    unfold addLines stepLine ruleLines
    by_cases h : (trim (removeComments l)).isEmpty = true
    · have := addLines_ink inc ls r b
      simpa [h, bind, Except.bind, ruleLines] using this
    · have hf : ((l :: ls).map removeComments).filter (fun l => !(trim l).isEmpty) =
          removeComments l :: ruleLines ls := by
        simp [ruleLines, h]
      rw [hf]
      simp only [h, runInk]
      have hs : ∀ (x y : Res (Rules × Block)), x = y →
          (do let (r, b) ← x; addLines inc ls r b) =
          (do let (r, b) ← y; runInk inc (ruleLines ls) r b) := by
        intro x y hxy
        subst hxy
        cases x with
        | error f => rfl
        | ok p => obtain ⟨r', b'⟩ := p; exact addLines_ink inc ls r' b'
      exact hs _ _ rfl

theorem runInk_cons (inc : Rules → Str → Res Rules) (l : Str) (ls : List Str) (r : Rules) (b : Block) :
    runInk inc (l :: ls) r b = (stepInk inc r b l).bind fun p => runInk inc ls p.1 p.2 := by
  cases b <;> rfl

theorem addLine_rule (inc : Rules → Str → Res Rules) (r : Rules) (l : Str) (h : NotInclude l) :
    addLine inc r l = (applyRule r.vals l).map fun v => .mk v r.subs := by
  unfold addLine applyRule
  cases hs : splitRule l with
  | error f => rfl
  | ok p =>
    obtain ⟨n, v⟩ := p
    have := h n v hs
    simp only [bind, Except.bind, this]
    split
    · rename_i h1; simp at h1
    · split
      · cases r.vals.reset n <;> rfl
      · cases r.vals.set n v <;> rfl

/-- Pending block, as it stands once its rules have begun: after a line in the first column it is as if
it had been closed before. -/
theorem runInk_close (inc : Rules → Str → Res Rules) (ls : List Str) (r s : Rules) (ps : List Str)
    (h : ∀ l ∈ ls.head?, startsInk l = true) :
    runInk inc ls r (.sub ps s true) = runInk inc ls (.mk r.vals (r.subs.push ps s)) .root := by
  cases ls with
  | nil => rfl
  | cons l ls =>
    rw [runInk_cons, runInk_cons]
    have : startsInk l = true := h l rfl
    simp [stepInk, this]

theorem runInk_more (inc : Rules → Str → Res Rules) (rest : List Str) (r s : Rules) :
    ∀ (more ps : List Str), (∀ l ∈ more, startsInk l = true) →
    runInk inc (more ++ rest) r (.sub ps s false) = runInk inc rest r (.sub (ps ++ more) s false)
  | [], ps, _ => by simp
  | l :: more, ps, h => by
    rw [List.cons_append, runInk_cons]
    have : startsInk l = true := h l (by simp)
    simp only [stepInk, this, Bool.not_true, Bool.false_eq_true, if_false, Bool.not_false, if_true,
      Except.bind]
    rw [runInk_more inc rest r s more _ fun l hl => h l (by simp [hl])]
    simp

theorem runInk_body (inc : Rules → Str → Res Rules) (rest : List Str) (r : Rules) (ps : List Str) :
    ∀ (body : List Str) (s : Rules) (f : Bool),
    (∀ l ∈ body, startsInk l = false ∧ NotInclude l) → body ≠ [] →
    runInk inc (body ++ rest) r (.sub ps s f) =
      (applyRules s.vals body).bind fun v => runInk inc rest r (.sub ps (.mk v s.subs) true)
  | [], _, _, _, h => absurd rfl h
  | l :: body, s, f, h, _ => by
    rw [List.cons_append, runInk_cons]
    obtain ⟨h1, h2⟩ := h l (by simp)
    simp only [stepInk, h1, Bool.not_false, if_true, addLine_rule inc s l h2, applyRules]
    cases ha : applyRule s.vals l with
    | error e => rfl
    | ok v =>
      simp only [bind, Except.bind, Except.map, pure, Except.pure]
      cases body with
      | nil => rfl
      | cons l' body =>
        rw [runInk_body inc rest r ps (l' :: body) (.mk v s.subs) true
          (fun l hl => h l (by simp [hl])) (by simp)]
        rfl

theorem openIf_ifLine (r : Rules) (f : Option Str) :
    openIf r (ifLine f) = .ok (.sub f.toList r false) := by
  cases f with
  | none => rfl
  | some p => simp [openIf, ifLine, posWs, isWs, bytesDrop, unwrap, pure, Except.pure, bind, Except.bind, Char.utf8Size]

theorem startsWith_ifLine (f : Option Str) : startsWith s%"if" (ifLine f) = true := by
  cases f <;> rfl

theorem items_head : ∀ (is : List RuleItem), (∀ i ∈ is, i.Wf) →
    ∀ l ∈ (is.flatMap RuleItem.lines).head?, startsInk l = true
  | [], _, l, hl => by simp at hl
  | .rule l' :: is, h, l, hl => by
    have := (h _ List.mem_cons_self).1
    simp [RuleItem.lines] at hl
    subst hl; exact this
  | .block f more body :: is, h, l, hl => by
    simp [RuleItem.lines] at hl
    subst hl
    cases f <;> rfl

theorem SubRules.blocks_push (s : SubRules) (p : List Str) (r : Rules) :
    (s.push p r).blocks = s.blocks ++ [(p, r.vals)] := by
  induction s using SubRules.rec (motive_1 := fun _ => True) with
  | mk _ _ _ => trivial
  | nil => rfl
  | cons q t rest _ ih => simp [SubRules.push, SubRules.blocks, ih]

/-- The rules built from the items of a rule file. -/
def build : List RuleItem → Rules → Res Rules
  | [], r => .ok r
  | .rule l :: is, r => (applyRule r.vals l).bind fun v => build is (.mk v r.subs)
  | .block f more body :: is, r => (applyRules r.vals body).bind fun bv =>
      build is (.mk r.vals (r.subs.push (f.toList ++ more) (.mk bv r.subs)))

/-- Running over the items of a rule file, whatever follows them in the first column. -/
theorem runInk_items (inc : Rules → Str → Res Rules) (rest : List Str)
    (hr : ∀ l ∈ rest.head?, startsInk l = true) : ∀ (is : List RuleItem), (∀ i ∈ is, i.Wf) →
    ∀ (r : Rules), runInk inc (is.flatMap RuleItem.lines ++ rest) r .root =
      (build is r).bind fun r => runInk inc rest r .root
  | [], _, r => rfl
  | .rule l :: is, h, r => by
    obtain ⟨_, h2, h3⟩ : RuleItem.Wf (.rule l) := h _ List.mem_cons_self
    show runInk inc (l :: (is.flatMap RuleItem.lines ++ rest)) r .root = _
    rw [runInk_cons]
    simp only [stepInk, rootLine, h2, addLine_rule inc r l h3, build]
    cases applyRule r.vals l with
    | error e => rfl
    | ok v => exact runInk_items inc rest hr is (fun i hi => h i (by simp [hi])) (.mk v r.subs)
  | .block f more body :: is, h, r => by
    obtain ⟨h1, h2, h3⟩ : RuleItem.Wf (.block f more body) := h _ List.mem_cons_self
    have h' : ∀ i ∈ is, i.Wf := fun i hi => h i (by simp [hi])
    have : (RuleItem.block f more body :: is).flatMap RuleItem.lines ++ rest =
        ifLine f :: (more ++ (body ++ (is.flatMap RuleItem.lines ++ rest))) := by
      simp [RuleItem.lines]
    rw [this, runInk_cons]
    simp only [stepInk, rootLine, startsWith_ifLine, if_true, openIf_ifLine, bind, Except.bind, pure,
      Except.pure]
    rw [runInk_more inc _ r r more _ h1, runInk_body inc _ r _ body r false h3 h2]
    simp only [build]
    cases applyRules r.vals body with
    | error e => rfl
    | ok bv =>
      simp only [Except.bind]
      rw [runInk_close]
      · exact runInk_items inc rest hr is h' _
      · intro l hl
        cases is with
        | nil => exact hr l (by simpa using hl)
        | cons i is =>
          refine items_head (i :: is) h' l ?_
          cases i <;> simpa [RuleItem.lines] using hl

theorem build_meaning : ∀ (is : List RuleItem) (r : Rules),
    (build is r).map (fun r => (r.vals, r.subs.blocks)) = meaning is r.vals r.subs.blocks
  | [], r => rfl
  | .rule l :: is, r => by
    simp only [build, meaning, bind, Except.bind]
    cases applyRule r.vals l with
    | error e => rfl
    | ok v => exact build_meaning is (.mk v r.subs)
  | .block f more body :: is, r => by
    simp only [build, meaning, bind, Except.bind]
    cases applyRules r.vals body with
    | error e => rfl
    | ok bv =>
      have := build_meaning is (.mk r.vals (r.subs.push (f.toList ++ more) (.mk bv r.subs)))
      rw [show (Rules.mk r.vals (r.subs.push (f.toList ++ more) (.mk bv r.subs))).subs.blocks =
        r.subs.blocks ++ [(f.toList ++ more, bv)] from SubRules.blocks_push _ _ _] at this
      exact this

/-- Reading the text of the items: the rules built from them. -/
theorem addLines_items (inc : Rules → Str → Res Rules) (ls : List Str) (is : List RuleItem)
    (hw : ∀ i ∈ is, i.Wf) (hl : ruleLines ls = is.flatMap RuleItem.lines) (r : Rules) :
    addLines inc ls r .root = build is r := by
  rw [addLines_ink, hl]
  have h := runInk_items inc [] (by simp) is hw r
  rw [List.append_nil] at h
  rw [h]
  cases build is r <;> rfl

/-! ### C66: what a block inherits -/

/-- **C66.** A rule file gives, whatever comments and blank lines it has, what it is meant to give: the
values at root level are those of its single rules in order; a block starts from the values set above it
and changes only its own. If a rule is wrong, reading fails with the error of the first wrong rule. -/
theorem C66_blocks (inc : Rules → Str → Res Rules) (ls : List Str) (is : List RuleItem)
    (hw : ∀ i ∈ is, i.Wf) (hl : ruleLines ls = is.flatMap RuleItem.lines) :
    (addLines inc ls Rules.default .root).map (fun r => (r.vals, r.subs.blocks)) =
      meaning is RuleVals.default [] := by
  rw [addLines_items inc ls is hw hl]
  exact build_meaning is Rules.default

theorem meaning_root (is : List RuleItem) : ∀ (v : RuleVals) (bs cs : List (List Str × RuleVals))
    (v' : RuleVals) (bs' : List (List Str × RuleVals)), meaning is v bs = .ok (v', bs') →
    meaning (is.filter fun | .rule _ => true | .block _ _ _ => false) v cs = .ok (v', cs) := by
  induction is with
  | nil => intro v bs cs v' bs' h; simp only [meaning, Except.ok.injEq, Prod.mk.injEq] at h; simp [meaning, h.1]
  | cons i is ih =>
    intro v bs cs v' bs' h
    cases i with
    | rule l =>
      simp only [List.filter_cons_of_pos, meaning, bind, Except.bind] at h ⊢
      cases ha : applyRule v l with
      | error e => rw [ha] at h; simp at h
      | ok x => rw [ha] at h; exact ih _ _ _ _ _ h
    | block f more body =>
      simp only [meaning, bind, Except.bind] at h
      cases ha : applyRules v body with
      | error e => rw [ha] at h; simp at h
      | ok x => rw [ha] at h; simpa using ih _ _ cs _ _ h

/-- **C66.** `if` blocks do not affect the values at root level: with all blocks deleted these are the
same. -/
theorem C66_root (inc : Rules → Str → Res Rules) (ls ls' : List Str) (is : List RuleItem)
    (hw : ∀ i ∈ is, i.Wf) (hl : ruleLines ls = is.flatMap RuleItem.lines)
    (hl' : ruleLines ls' =
      (is.filter fun | .rule _ => true | .block _ _ _ => false).flatMap RuleItem.lines)
    (r : Rules) (h : addLines inc ls Rules.default .root = .ok r) :
    ∃ r', addLines inc ls' Rules.default .root = .ok r' ∧ r'.vals = r.vals := by
  have h1 := C66_blocks inc ls is hw hl
  rw [h] at h1
  have h2 := C66_blocks inc ls' _ (fun i hi => hw i (List.mem_filter.mp hi).1) hl'
  rw [meaning_root is _ _ [] _ _ h1.symm] at h2
  cases ha : addLines inc ls' Rules.default .root with
  | error e => rw [ha] at h2; simp [Except.map] at h2
  | ok r' =>
    rw [ha] at h2
    simp only [Except.map, Except.ok.injEq, Prod.mk.injEq] at h2
    exact ⟨r', rfl, h2.1⟩

theorem meaning_append (is js : List RuleItem) : ∀ (v : RuleVals) (bs : List (List Str × RuleVals)),
    meaning (is ++ js) v bs = (meaning is v bs).bind fun p => meaning js p.1 p.2 := by
  induction is with
  | nil => intro v bs; rfl
  | cons i is ih =>
    intro v bs
    cases i with
    | rule l =>
      simp only [List.cons_append, meaning, bind, Except.bind]
      cases applyRule v l with
      | error e => rfl
      | ok x => exact ih _ _
    | block f more body =>
      simp only [List.cons_append, meaning, bind, Except.bind]
      cases applyRules v body with
      | error e => rfl
      | ok x => exact ih _ _

theorem meaning_prefix (is : List RuleItem) : ∀ (v : RuleVals) (bs : List (List Str × RuleVals))
    (p : RuleVals × List (List Str × RuleVals)), meaning is v bs = .ok p →
    ∃ cs, p.2 = bs ++ cs := by
  induction is with
  | nil => intro v bs p h; simp only [meaning, Except.ok.injEq] at h; exact ⟨[], by simp [← h]⟩
  | cons i is ih =>
    intro v bs p h
    cases i with
    | rule l =>
      simp only [meaning, bind, Except.bind] at h
      cases ha : applyRule v l with
      | error e => rw [ha] at h; simp at h
      | ok x => rw [ha] at h; exact ih _ _ _ h
    | block f more body =>
      simp only [meaning, bind, Except.bind] at h
      cases ha : applyRules v body with
      | error e => rw [ha] at h; simp at h
      | ok x =>
        rw [ha] at h
        obtain ⟨cs, hc⟩ := ih _ _ _ h
        exact ⟨_, by rw [hc, List.append_assoc]⟩

/-- **C66.** What comes after a block does not affect it: however a rule file is continued, its blocks
stay what they were. -/
theorem C66_later (inc : Rules → Str → Res Rules) (ls ls' : List Str) (is js : List RuleItem)
    (hw : ∀ i ∈ is ++ js, i.Wf) (hl : ruleLines ls = is.flatMap RuleItem.lines)
    (hl' : ruleLines ls' = (is ++ js).flatMap RuleItem.lines)
    (r' : Rules) (h : addLines inc ls' Rules.default .root = .ok r') :
    ∃ r cs, addLines inc ls Rules.default .root = .ok r ∧ r'.subs.blocks = r.subs.blocks ++ cs := by
  have h1 := C66_blocks inc ls' (is ++ js) hw hl'
  rw [h, meaning_append] at h1
  have h2 := C66_blocks inc ls is (fun i hi => hw i (by simp [hi])) hl
  cases hm : meaning is RuleVals.default [] with
  | error e => rw [hm] at h1; simp [Except.map, Except.bind] at h1
  | ok p =>
    rw [hm] at h1 h2
    cases ha : addLines inc ls Rules.default .root with
    | error e => rw [ha] at h2; simp [Except.map] at h2
    | ok r =>
      rw [ha] at h2
      simp only [Except.map, Except.ok.injEq] at h2
      obtain ⟨cs, hc⟩ := meaning_prefix js _ _ _ h1.symm
      exact ⟨r, cs, rfl, by rw [← h2] at hc; exact hc⟩

/-- **C66.** An `include` outside of blocks stands for the lines of the file, put in its place. -/
theorem C66_include (w : World) (fuel : Nat) (line path text : Str) (rest ls : List Str)
    (hi : startsInk line = true) (hif : startsWith s%"if" line = false)
    (hn : ∃ n, splitRule line = .ok (n, path) ∧ isInclude n = true)
    (hf : w.read path = some text)
    (is js : List RuleItem) (hw : ∀ i ∈ is ++ js, i.Wf)
    (hs : ruleLines (lines text) = js.flatMap RuleItem.lines)
    (hrest : ∀ l ∈ rest.head?, startsInk l = true)
    (hl : ruleLines ls = is.flatMap RuleItem.lines ++ line :: rest) (ls' : List Str)
    (hl' : ruleLines ls' = is.flatMap RuleItem.lines ++ (js.flatMap RuleItem.lines ++ rest)) :
    addLines (addRulesFile w (fuel + 1)) ls Rules.default .root =
      addLines (addRulesFile w (fuel + 1)) ls' Rules.default .root := by
  have hwi : ∀ i ∈ is, i.Wf := fun i hi => hw i (by simp [hi])
  have hwj : ∀ i ∈ js, i.Wf := fun i hi => hw i (by simp [hi])
  obtain ⟨n, hn1, hn2⟩ := hn
  rw [addLines_ink, addLines_ink, hl, hl', runInk_items _ (line :: rest) (by simp [hi]) is hwi,
    runInk_items _ _ _ is hwi]
  · cases build is Rules.default with
    | error e => rfl
    | ok r =>
      simp only [Except.bind]
      rw [runInk_cons, runInk_items _ rest hrest js hwj]
      simp only [stepInk, rootLine, hif, addLine, hn1, hn2, bind, Except.bind, if_true, addRulesFile, hf,
        addLines_items _ _ js hwj hs]
      cases build js r <;> rfl
  · intro l hl
    cases js with
    | nil => exact hrest l (by simpa using hl)
    | cons i js =>
      refine items_head (i :: js) hwj l ?_
      cases i <;> simpa [RuleItem.lines] using hl

/-- A rule file with an `if` block between two rules, with comments. -/
def exRules : List Str :=
  [s%"fields date, description, amount ; columns", [], s%"payee Bank", s%"amount1 %amount%",
   s%"if coffee", s%"TEA", s%"  account1 expenses:cafe", s%"  payee Cafe ; own payee",
   s%"status *", s%"account1 assets:checking"]

def exItems : List RuleItem :=
  [.rule s%"fields date, description, amount ", .rule s%"payee Bank", .rule s%"amount1 %amount%",
   .block (some s%"coffee") [s%"TEA"] [s%"  account1 expenses:cafe", s%"  payee Cafe "],
   .rule s%"status *", .rule s%"account1 assets:checking"]

theorem notInclude_of (l n v : Str) (h : splitRule l = .ok (n, v)) (hn : isInclude n = false) :
    NotInclude l := by
  intro n' v' h'
  rw [h] at h'
  simp only [Except.ok.injEq, Prod.mk.injEq] at h'
  rw [← h'.1]; exact hn

theorem exItems_wf : ∀ i ∈ exItems, i.Wf := by
  simp only [exItems, List.mem_cons, List.not_mem_nil, or_false, forall_eq_or_imp, forall_eq,
    RuleItem.Wf]
  refine ⟨⟨rfl, rfl, notInclude_of _ _ _ rfl rfl⟩, ⟨rfl, rfl, notInclude_of _ _ _ rfl rfl⟩,
    ⟨rfl, rfl, notInclude_of _ _ _ rfl rfl⟩, ⟨rfl, by simp, ⟨rfl, notInclude_of _ _ _ rfl rfl⟩, rfl, notInclude_of _ _ _ rfl rfl⟩,
    ⟨rfl, rfl, notInclude_of _ _ _ rfl rfl⟩, rfl, rfl, notInclude_of _ _ _ rfl rfl⟩

example : ruleLines exRules = exItems.flatMap RuleItem.lines := by decide

/-- The block has the fields and its own payee, but not the status set below it. -/
example : ∃ v bv, meaning exItems RuleVals.default [] = .ok (v, [([s%"coffee", s%"TEA"], bv)]) ∧
    v.payee = s%"Bank" ∧ v.status = s%"*" ∧ v.accounts = [(s%"1", s%"assets:checking")] ∧
    bv.payee = s%"Cafe " ∧ bv.status = s%"~" ∧ bv.accounts = [(s%"1", s%"expenses:cafe")] ∧
    bv.fields = [s%"date", s%"description", s%"amount"] :=
  ⟨_, _, rfl, rfl, rfl, rfl, rfl, rfl, rfl, rfl⟩

/-! ### C63: the first block that matches decides -/

/-- Does a block with these patterns apply to the record? Some pattern occurs in it, in lower case. -/
def Applies (env : Env) (patterns record : List Str) : Prop :=
  ∃ p ∈ patterns, env.lower p <:+: env.lower record.flatten

theorem find_isSome : ∀ (p s : Str), (find p s).isSome = true ↔ p <:+: s
  | p, [] => by
    cases p <;> simp [find]
  | p, c :: cs => by
    unfold find
    by_cases h : p.isPrefixOf (c :: cs) = true
    · simp only [h, if_true, Option.isSome_some, true_iff]
      exact (List.isPrefixOf_iff_prefix.mp h).isInfix
    · have hp : ¬ p <+: c :: cs := fun hp => h (List.isPrefixOf_iff_prefix.mpr hp)
      simp [h, List.infix_cons_iff, hp, find_isSome p cs]

theorem containsStr_iff (p s : Str) : containsStr p s = true ↔ p <:+: s := find_isSome p s

theorem appliesTo_iff (env : Env) (ps record : List Str) :
    appliesTo env ps record = true ↔ Applies env ps record := by
  simp only [appliesTo, Applies, List.any_eq_true, containsStr_iff]

/-- The patterns of the blocks. -/
def SubRules.patterns : SubRules → List (List Str)
  | .nil => []
  | .cons ps _ rest => ps :: rest.patterns

/-- The blocks within a block are copies of earlier ones. -/
def SubRules.Flat (earlier : List (List Str)) : SubRules → Prop
  | .nil => True
  | .cons ps r rest => (∀ q ∈ r.subs.patterns, q ∈ earlier) ∧ SubRules.Flat (earlier ++ [ps]) rest

theorem SubRules.patterns_push (s : SubRules) (p : List Str) (r : Rules) :
    (s.push p r).patterns = s.patterns ++ [p] := by
  induction s using SubRules.rec (motive_1 := fun _ => True) with
  | mk _ _ _ => trivial
  | nil => rfl
  | cons q t rest _ ih => simp [SubRules.push, SubRules.patterns, ih]

theorem SubRules.flat_push (s : SubRules) (p : List Str) (r : Rules) :
    ∀ (e : List (List Str)), s.Flat e → (∀ q ∈ r.subs.patterns, q ∈ e ++ s.patterns) →
    (s.push p r).Flat e := by
  induction s using SubRules.rec (motive_1 := fun _ => True) with
  | mk _ _ _ => trivial
  | nil => intro e _ h; exact ⟨by simpa [SubRules.patterns] using h, trivial⟩
  | cons q t rest _ ih =>
    intro e h1 h2
    exact ⟨h1.1, ih _ h1.2 (by simpa [SubRules.patterns] using h2)⟩

variable {M : Type} [Mag M]

theorem SubRules.entry_none (env : Env) (record known : List Str) (s : SubRules)
    (h : ∀ q ∈ s.patterns, appliesTo env q record = false) :
    SubRules.entry (M := M) env record known s = none := by
  induction s using SubRules.rec (motive_1 := fun _ => True) with
  | mk _ _ _ => trivial
  | nil => simp [SubRules.entry]
  | cons q t rest _ ih =>
    simp only [SubRules.patterns, List.mem_cons, forall_eq_or_imp] at h
    simp [SubRules.entry, h.1, ih h.2]

theorem SubRules.entry_flat (env : Env) (record known : List Str) (s : SubRules) :
    ∀ (e : List (List Str)), s.Flat e → (∀ q ∈ e, appliesTo env q record = false) →
    SubRules.entry (M := M) env record known s =
      (s.blocks.find? fun b => appliesTo env b.1 record).map fun b => b.2.entry env record known := by
  induction s using SubRules.rec (motive_1 := fun _ => True) with
  | mk _ _ _ => trivial
  | nil => intro e _ _; simp [SubRules.entry, SubRules.blocks]
  | cons q t rest _ ih =>
    intro e h1 h2
    simp only [SubRules.entry, SubRules.blocks]
    cases ha : appliesTo env q record with
    | true =>
      cases t with
      | mk v ts =>
        rw [List.find?_cons_of_pos (by exact ha)]
        have := SubRules.entry_none (M := M) env record known ts fun x hx => h2 x (h1.1 x hx)
        simp [Rules.entry, this, Rules.vals]
    | false =>
      rw [List.find?_cons_of_neg (by simp [ha])]
      simpa using ih _ h1.2 (by
        intro x hx
        rcases List.mem_append.mp hx with hx | hx
        · exact h2 x hx
        · rw [List.mem_singleton.mp hx]; exact ha)

theorem build_flat : ∀ (is : List RuleItem) (r r' : Rules), r.subs.Flat [] → build is r = .ok r' →
    r'.subs.Flat []
  | [], r, r', h, hb => by
    simp only [build, Except.ok.injEq] at hb
    rw [← hb]; exact h
  | .rule l :: is, r, r', h, hb => by
    simp only [build] at hb
    cases ha : applyRule r.vals l with
    | error e => rw [ha] at hb; simp [Except.bind] at hb
    | ok v => rw [ha] at hb; exact build_flat is (.mk v r.subs) r' h hb
  | .block f more body :: is, r, r', h, hb => by
    simp only [build] at hb
    cases ha : applyRules r.vals body with
    | error e => rw [ha] at hb; simp [Except.bind] at hb
    | ok v =>
      rw [ha] at hb
      refine build_flat is (.mk r.vals (r.subs.push (f.toList ++ more) (.mk v r.subs))) r' ?_ hb
      exact SubRules.flat_push _ _ _ _ h fun q hq => List.mem_append_right _ hq

/-- `rule` decides about the record: it belongs to the first block that applies, or to the root if there
is none. -/
def Decides (env : Env) (record : List Str) (root : RuleVals) (blocks : List (List Str × RuleVals))
    (rule : RuleVals) : Prop :=
  (∃ before ps after, blocks = before ++ (ps, rule) :: after ∧ Applies env ps record ∧
    ∀ b ∈ before, ¬ Applies env b.1 record) ∨
  (rule = root ∧ ∀ b ∈ blocks, ¬ Applies env b.1 record)

theorem decides_of_find (env : Env) (record : List Str) (root : RuleVals)
    (bs : List (List Str × RuleVals)) (rule : RuleVals) (h : Decides env record root bs rule) :
    ((bs.find? fun b => appliesTo env b.1 record).map Prod.snd).getD root = rule := by
  have key : ∀ q, ¬ Applies env q record → appliesTo env q record = false := by
    intro q hq
    rw [← appliesTo_iff] at hq
    simpa using hq
  rcases h with ⟨before, ps, after, rfl, h1, h2⟩ | ⟨rfl, h2⟩
  · rw [List.find?_append, List.find?_eq_none.mpr fun b hb => by simp [key _ (h2 b hb)]]
    rw [Option.none_or, List.find?_cons_of_pos (by exact (appliesTo_iff env ps record).mpr h1)]
    rfl
  · rw [List.find?_eq_none.mpr fun b hb => by simp [key _ (h2 b hb)]]
    rfl

theorem decides_exists (env : Env) (record : List Str) (root : RuleVals) :
    ∀ (bs : List (List Str × RuleVals)), ∃ rule, Decides env record root bs rule
  | [] => ⟨root, .inr ⟨rfl, by simp⟩⟩
  | (ps, v) :: bs => by
    by_cases ha : Applies env ps record
    · exact ⟨v, .inl ⟨[], ps, bs, rfl, ha, by simp⟩⟩
    · obtain ⟨rule, h⟩ := decides_exists env record root bs
      refine ⟨rule, ?_⟩
      rcases h with ⟨b, qs, a, h1, h2, h3⟩ | ⟨h1, h2⟩
      · refine .inl ⟨(ps, v) :: b, qs, a, by simp [h1], h2, ?_⟩
        intro x hx
        rcases List.mem_cons.mp hx with rfl | hx
        · exact ha
        · exact h3 x hx
      · refine .inr ⟨h1, ?_⟩
        intro x hx
        rcases List.mem_cons.mp hx with rfl | hx
        · exact ha
        · exact h2 x hx

theorem entry_decides (env : Env) (record known : List Str) (r : Rules) (h : r.subs.Flat [])
    (rule : RuleVals) (hd : Decides env record r.vals r.subs.blocks rule) :
    (r.entry env record known : Res (Entry M)) = rule.entry env record known := by
  rw [← decides_of_find env record _ _ _ hd]
  cases r with
  | mk v s =>
    simp only [Rules.entry, SubRules.entry_flat (M := M) env record known s [] h (by simp), Rules.vals,
      Rules.subs]
    cases s.blocks.find? fun b => appliesTo env b.1 record <;> rfl

/-- **C63.** A rule file that means root values `root` and blocks `blocks` is read, and the entry of every
record is made by the values of the first block that applies to it, and by those of the root if none
does. -/
theorem C63_first_block (env : Env) (inc : Rules → Str → Res Rules) (ls : List Str)
    (is : List RuleItem) (hw : ∀ i ∈ is, i.Wf) (hl : ruleLines ls = is.flatMap RuleItem.lines)
    (root : RuleVals) (blocks : List (List Str × RuleVals))
    (hm : meaning is RuleVals.default [] = .ok (root, blocks)) :
    ∃ r, addLines inc ls Rules.default .root = .ok r ∧
      ∀ record known rule, Decides env record root blocks rule →
        (r.entry env record known : Res (Entry M)) = rule.entry env record known := by
  have h := C66_blocks inc ls is hw hl
  rw [hm] at h
  rw [addLines_items inc ls is hw hl] at h ⊢
  cases hb : build is Rules.default with
  | error e => rw [hb] at h; simp [Except.map] at h
  | ok r =>
    rw [hb] at h
    simp only [Except.map, Except.ok.injEq, Prod.mk.injEq] at h
    refine ⟨r, rfl, fun record known rule hd => ?_⟩
    refine entry_decides env record known r (build_flat is Rules.default r trivial hb) rule ?_
    rw [h.1, h.2]; exact hd

/-- No indented line of the text is an `include`. -/
def NoInnerInclude (ls : List Str) : Prop :=
  ∀ l ∈ ruleLines ls, startsInk l = false → NotInclude l

theorem addLine_flat (inc : Rules → Str → Res Rules)
    (hinc : ∀ r p r', r.subs.Flat [] → inc r p = .ok r' → r'.subs.Flat []) (r r' : Rules) (l : Str)
    (h : r.subs.Flat []) (ha : addLine inc r l = .ok r') : r'.subs.Flat [] := by
  unfold addLine at ha
  cases hs : splitRule l with
  | error e => rw [hs] at ha; simp [bind, Except.bind] at ha
  | ok p =>
    obtain ⟨n, v⟩ := p
    rw [hs] at ha
    simp only [bind, Except.bind] at ha
    split at ha
    · exact hinc _ _ _ h ha
    · split at ha <;> split at ha <;> simp [pure, Except.pure] at ha <;> rw [← ha] <;> exact h

/-- What holds between lines. -/
def BlockInv (r : Rules) : Block → Prop
  | .root => r.subs.Flat []
  | .sub _ s _ => r.subs.Flat [] ∧ s.subs = r.subs

theorem rootLine_flat (inc : Rules → Str → Res Rules)
    (hinc : ∀ r p r', r.subs.Flat [] → inc r p = .ok r' → r'.subs.Flat []) (r : Rules) (l : Str)
    (h : r.subs.Flat []) (q : Rules × Block) (ha : rootLine inc r l = .ok q) : BlockInv q.1 q.2 := by
  unfold rootLine at ha
  split at ha
  · unfold openIf at ha
    split at ha
    · simp only [bind, Except.bind, pure, Except.pure, Except.ok.injEq] at ha
      rw [← ha]; exact ⟨h, rfl⟩
    · simp only [bind, Except.bind, pure, Except.pure] at ha
      split at ha
      · simp at ha
      · rename_i hx
        split at hx
        · simp at hx
        · simp only [Except.ok.injEq] at hx ha
          rw [← ha, ← hx]; exact ⟨h, rfl⟩
  · cases hb : addLine inc r l with
    | error e => rw [hb] at ha; simp [bind, Except.bind] at ha
    | ok r' =>
      rw [hb] at ha
      simp only [bind, Except.bind, pure, Except.pure, Except.ok.injEq] at ha
      rw [← ha]; exact addLine_flat inc hinc r r' l h hb

theorem close_flat (r s : Rules) (ps : List Str) (h : r.subs.Flat []) (hs : s.subs = r.subs) :
    (r.subs.push ps s).Flat [] :=
  SubRules.flat_push _ _ _ _ h fun q hq => by rw [hs] at hq; simpa using hq

theorem runInk_flat (inc : Rules → Str → Res Rules)
    (hinc : ∀ r p r', r.subs.Flat [] → inc r p = .ok r' → r'.subs.Flat []) : ∀ (ls : List Str)
    (_ : ∀ l ∈ ls, startsInk l = false → NotInclude l) (r : Rules) (b : Block) (_ : BlockInv r b)
    (r' : Rules), runInk inc ls r b = .ok r' → r'.subs.Flat []
  | [], _, r, .root, h, r', hr => by
    simp only [runInk, Except.ok.injEq] at hr
    rw [← hr]; exact h
  | [], _, r, .sub ps s _, h, r', hr => by
    simp only [runInk, Except.ok.injEq] at hr
    rw [← hr]; exact close_flat r s ps h.1 h.2
  | l :: ls, hn, r, b, h, r', hr => by
    rw [runInk_cons] at hr
    cases hs : stepInk inc r b l with
    | error e => rw [hs] at hr; simp [Except.bind] at hr
    | ok q =>
      rw [hs] at hr
      refine runInk_flat inc hinc ls (fun x hx => hn x (by simp [hx])) q.1 q.2 ?_ r' hr
      cases b with
      | root => exact rootLine_flat inc hinc r l h q hs
      | sub ps s f =>
        unfold stepInk at hs
        cases hi : startsInk l with
        | false =>
          simp only [hi, Bool.not_false, if_true, addLine_rule inc s l (hn l (by simp) hi)] at hs
          cases ha : applyRule s.vals l with
          | error e => rw [ha] at hs; simp [Except.map, bind, Except.bind] at hs
          | ok v =>
            rw [ha] at hs
            simp only [Except.map, bind, Except.bind, pure, Except.pure, Except.ok.injEq] at hs
            rw [← hs]; exact ⟨h.1, h.2⟩
        | true =>
          simp only [hi, Bool.not_true, Bool.false_eq_true, if_false] at hs
          split at hs
          · simp only [Except.ok.injEq] at hs
            rw [← hs]; exact h
          · exact rootLine_flat inc hinc (.mk r.vals (r.subs.push ps s)) l
              (close_flat r s ps h.1 h.2) q hs

theorem addRulesFile_flat (w : World)
    (hw : ∀ p s, w.read p = some s → NoInnerInclude (lines s)) : ∀ (fuel : Nat) (r : Rules) (p : Str)
    (r' : Rules), r.subs.Flat [] → addRulesFile w fuel r p = .ok r' → r'.subs.Flat []
  | 0, _, _, _, _, h => by simp [addRulesFile, panicked] at h
  | f + 1, r, p, r', hr, h => by
    simp only [addRulesFile] at h
    cases hp : w.read p with
    | none => rw [hp] at h; simp [fail] at h
    | some s =>
      rw [hp] at h
      simp only [addLines_ink] at h
      exact runInk_flat _ (addRulesFile_flat w hw f) _ (hw p s hp) r .root hr r' h

/-- **C63.** The same for any rules the program has read, with included files, if no `if` block includes
a file: a block within a block is only ever a copy of an earlier one and is never reached. -/
theorem C63_first_block_read (env : Env) (w : World) (fuel : Nat) (ls : List Str) (r : Rules)
    (hl : NoInnerInclude ls) (hw : ∀ p s, w.read p = some s → NoInnerInclude (lines s))
    (h : addLines (addRulesFile w fuel) ls Rules.default .root = .ok r) (record known : List Str)
    (rule : RuleVals) (hd : Decides env record r.vals r.subs.blocks rule) :
    (r.entry env record known : Res (Entry M)) = rule.entry env record known := by
  refine entry_decides env record known r ?_ rule hd
  rw [addLines_ink] at h
  exact runInk_flat _ (addRulesFile_flat w hw fuel) _ hl Rules.default .root trivial r h

/-- The example file at work: the block decides about the tea (in lower case), the root about the rent. -/
def exPayee (record : List Str) : Res (Option Str × Status) := do
  let r ← addLines (fun r _ => .ok r) exRules Rules.default .root
  let e ← (r.entry (stdEnv ⟨2024, 6, 15, by decide⟩) record
    [s%"assets:checking", s%"expenses:cafe"] : Res (Entry F64))
  pure (e.payee, e.status)

example : exPayee [s%"2024/06/01", s%"Green TEA", s%"-3"] = .ok (some s%"Cafe ", .cleared) := by decide +kernel
example : exPayee [s%"2024/06/01", s%"Rent", s%"-3"] = .ok (some s%"Bank", .reconciled) := by decide +kernel

/-! ### C65: the last value of a rule counts -/

/-- The last value given to one of these names. -/
def lastRule (names : List Str) (kvs : List (Str × Str)) : Option Str :=
  (kvs.filter fun kv => kv.1 ∈ names).getLast?.map Prod.snd

/-- `a` is what the rules settle for a setting with these names: the last value given for it, read by
`read`; the default if there is none or the last is `-`. -/
def SettledBy {α : Type} (names : List Str) (dflt : α) (read : Str → Option α) (kvs : List (Str × Str))
    (a : α) : Prop :=
  match lastRule names kvs with
  | none => a = dflt
  | some x => if trim x = s%"-" then a = dflt else read x = some a

/-- The effect of one rule. -/
inductive RuleEffect (v : RuleVals) (n x : Str) : RuleVals → Prop
  | comment : (n = s%"comment" ∨ n = s%"note") → RuleEffect v n x { v with comment := if trim x = s%"-" then [] else x }
  | dateFormat : (n = s%"date_format") → RuleEffect v n x { v with dateFormat := if trim x = s%"-" then s%"%Y/%m/%d" else x }
  | dateStr : (n = s%"date") → RuleEffect v n x { v with dateStr := if trim x = s%"-" then s%"%date%" else x }
  | description : (n = s%"description") → RuleEffect v n x { v with description := if trim x = s%"-" then s%"%description%" else x }
  | payee : (n = s%"payee") → RuleEffect v n x { v with payee := if trim x = s%"-" then [] else x }
  | status : (n = s%"status") → RuleEffect v n x { v with status := if trim x = s%"-" then s%"~" else x }
  | decimal (c : Char) : (n = s%"decimal_symbol" ∨ n = s%"decimal") →
      (if trim x = s%"-" then c = '.' else x = [c] ∧ c.utf8Size = 1) →
      RuleEffect v n x { v with decimal := c }
  | skip (k : Int) : n = s%"skip" → (if trim x = s%"-" then k = 1 else parseI32 x = some k) →
      RuleEffect v n x { v with skip := k }
  | fields : n = s%"fields" → trim x ≠ s%"-" →
      RuleEffect v n x { v with fields := v.fields ++ (splitOn ',' x).map trim }
  | amount (i : Str) : n = s%"amount" ++ i → RuleEffect v n x { v with
      amounts := if trim x = s%"-" then mapRemove v.amounts i else mapInsert v.amounts i x }
  | account (i : Str) : n = s%"account" ++ i → RuleEffect v n x { v with
      accounts := if trim x = s%"-" then mapRemove v.accounts i else mapInsert v.accounts i x }

theorem stripPrefix_some : ∀ (p s i : Str), stripPrefix p s = some i → s = p ++ i
  | [], s, i, h => by simpa [stripPrefix] using h
  | _ :: _, [], i, h => by simp [stripPrefix] at h
  | p :: ps, c :: cs, i, h => by
    simp only [stripPrefix] at h
    split at h
    · rename_i hc; rw [stripPrefix_some ps cs i h, hc]; rfl
    · simp at h

theorem char_of_short (x : Str) (c : Char) (h : ¬ utf8Len x > 1) (hx : x.head? = some c) :
    x = [c] ∧ c.utf8Size = 1 := by
  cases x with
  | nil => simp at hx
  | cons d ds =>
    simp only [List.head?_cons, Option.some.injEq] at hx
    subst hx
    have h1 := Char.utf8Size_pos d
    cases ds with
    | nil => simp only [utf8Len] at h; exact ⟨rfl, by omega⟩
    | cons e es =>
      have h2 := Char.utf8Size_pos e
      simp only [utf8Len] at h; omega

theorem set_effect (v v1 : RuleVals) (n x : Str) (hd : ¬ trim x = s%"-") (h : v.set n x = .ok v1) :
    RuleEffect v n x v1 := by
  unfold RuleVals.set at h
  by_cases h0 : n = s%"comment" ∨ n = s%"note"
  · rw [if_pos h0] at h
    cases h; have := RuleEffect.comment (v := v) (x := x) h0; simpa [hd] using this
  rw [if_neg h0] at h
  by_cases h1 : n = s%"date_format"
  · rw [if_pos h1] at h
    cases h; have := RuleEffect.dateFormat (v := v) (x := x) h1; simpa [hd] using this
  rw [if_neg h1] at h
  by_cases h2 : n = s%"date"
  · rw [if_pos h2] at h
    cases h; have := RuleEffect.dateStr (v := v) (x := x) h2; simpa [hd] using this
  rw [if_neg h2] at h
  by_cases h3 : n = s%"decimal_symbol" ∨ n = s%"decimal"
  · rw [if_pos h3] at h
    split at h
    · simp [fail] at h
    · rename_i hl
      cases hx : x.head? with
      | none => rw [hx] at h; simp [unwrap, bind, Except.bind] at h
      | some c =>
        rw [hx] at h
        cases h
        exact .decimal c h3 (by rw [if_neg hd]; exact char_of_short x c hl hx)
  rw [if_neg h3] at h
  by_cases h4 : n = s%"description"
  · rw [if_pos h4] at h
    cases h; have := RuleEffect.description (v := v) (x := x) h4; simpa [hd] using this
  rw [if_neg h4] at h
  by_cases h5 : n = s%"fields"
  · rw [if_pos h5] at h
    cases h; exact .fields h5 hd
  rw [if_neg h5] at h
  by_cases h6 : n = s%"if"
  · rw [if_pos h6] at h
    simp [fail] at h
  rw [if_neg h6] at h
  by_cases h7 : n = s%"payee"
  · rw [if_pos h7] at h
    cases h; have := RuleEffect.payee (v := v) (x := x) h7; simpa [hd] using this
  rw [if_neg h7] at h
  by_cases h8 : n = s%"skip"
  · rw [if_pos h8] at h
    cases hx : parseI32 x with
    | none => rw [hx] at h; simp [fail] at h
    | some c =>
      rw [hx] at h
      cases h
      exact .skip c h8 (by rw [if_neg hd]; exact hx)
  rw [if_neg h8] at h
  by_cases h9 : n = s%"status"
  · rw [if_pos h9] at h
    cases h; have := RuleEffect.status (v := v) (x := x) h9; simpa [hd] using this
  rw [if_neg h9] at h
  cases ha : stripPrefix s%"amount" n with
  | some i =>
    rw [ha] at h
    cases h; have := RuleEffect.amount (v := v) (x := x) i (stripPrefix_some _ _ _ ha); simpa [hd] using this
  | none =>
    rw [ha] at h
    cases hb : stripPrefix s%"account" n with
    | some i =>
      simp only [hb] at h
      cases h; have := RuleEffect.account (v := v) (x := x) i (stripPrefix_some _ _ _ hb); simpa [hd] using this
    | none => simp [hb, fail] at h

theorem reset_effect (v v1 : RuleVals) (n x : Str) (hd : trim x = s%"-") (h : v.reset n = .ok v1) :
    RuleEffect v n x v1 := by
  unfold RuleVals.reset at h
  by_cases h0 : n = s%"comment" ∨ n = s%"note"
  · rw [if_pos h0] at h
    cases h; have := RuleEffect.comment (v := v) (x := x) h0; simpa [hd] using this
  rw [if_neg h0] at h
  by_cases h1 : n = s%"date_format"
  · rw [if_pos h1] at h
    cases h; have := RuleEffect.dateFormat (v := v) (x := x) h1; simpa [hd] using this
  rw [if_neg h1] at h
  by_cases h2 : n = s%"date"
  · rw [if_pos h2] at h
    cases h; have := RuleEffect.dateStr (v := v) (x := x) h2; simpa [hd] using this
  rw [if_neg h2] at h
  by_cases h3 : n = s%"decimal_symbol" ∨ n = s%"decimal"
  · rw [if_pos h3] at h
    cases h; exact .decimal '.' h3 (by simp [hd])
  rw [if_neg h3] at h
  by_cases h4 : n = s%"description"
  · rw [if_pos h4] at h
    cases h; have := RuleEffect.description (v := v) (x := x) h4; simpa [hd] using this
  rw [if_neg h4] at h
  by_cases h5 : n = s%"fields"
  · rw [if_pos h5] at h
    simp [fail] at h
  rw [if_neg h5] at h
  by_cases h6 : n = s%"if"
  · rw [if_pos h6] at h
    simp [fail] at h
  rw [if_neg h6] at h
  by_cases h7 : n = s%"payee"
  · rw [if_pos h7] at h
    cases h; have := RuleEffect.payee (v := v) (x := x) h7; simpa [hd] using this
  rw [if_neg h7] at h
  by_cases h8 : n = s%"skip"
  · rw [if_pos h8] at h
    cases h; exact .skip 1 h8 (by simp [hd])
  rw [if_neg h8] at h
  by_cases h9 : n = s%"status"
  · rw [if_pos h9] at h
    cases h; have := RuleEffect.status (v := v) (x := x) h9; simpa [hd] using this
  rw [if_neg h9] at h
  cases ha : stripPrefix s%"amount" n with
  | some i =>
    rw [ha] at h
    cases h; have := RuleEffect.amount (v := v) (x := x) i (stripPrefix_some _ _ _ ha); simpa [hd] using this
  | none =>
    rw [ha] at h
    cases hb : stripPrefix s%"account" n with
    | some i =>
      simp only [hb] at h
      cases h; have := RuleEffect.account (v := v) (x := x) i (stripPrefix_some _ _ _ hb); simpa [hd] using this
    | none => simp [hb, fail] at h

theorem applyRule_effect (v v1 : RuleVals) (l n x : Str) (hs : splitRule l = .ok (n, x))
    (h : applyRule v l = .ok v1) : RuleEffect v n x v1 := by
  unfold applyRule at h
  rw [hs] at h
  simp only [bind, Except.bind] at h
  split at h
  · rename_i hd; exact reset_effect v v1 n x hd h
  · rename_i hd; exact set_effect v v1 n x hd h

theorem lastRule_cons (names : List Str) (kv : Str × Str) (kvs : List (Str × Str)) :
    lastRule names (kv :: kvs) =
      (lastRule names kvs).or (if kv.1 ∈ names then some kv.2 else none) := by
  unfold lastRule
  by_cases h : kv.1 ∈ names
  · rw [List.filter_cons_of_pos (by simpa using h), List.getLast?_cons]
    cases (kvs.filter fun kv => kv.1 ∈ names).getLast? <;> simp [h]
  · rw [List.filter_cons_of_neg (by simpa using h)]
    cases (kvs.filter fun kv => kv.1 ∈ names).getLast? <;> simp [h]

/-- A setting on which every rule acts by its name alone is settled by the rules. -/
theorem settled_of {α : Type} (get : RuleVals → α) (names : List Str) (dflt : α)
    (read : Str → Option α)
    (h1 : ∀ v v1 n x, RuleEffect v n x v1 → n ∈ names →
      if trim x = s%"-" then get v1 = dflt else read x = some (get v1))
    (h2 : ∀ v v1 n x, RuleEffect v n x v1 → n ∉ names → get v1 = get v) :
    ∀ (ls : List Str) (kvs : List (Str × Str)) (_ : ls.map splitRule = kvs.map .ok) (v v' : RuleVals),
    applyRules v ls = .ok v' →
    match lastRule names kvs with
    | none => get v' = get v
    | some x => if trim x = s%"-" then get v' = dflt else read x = some (get v')
  | [], [], _, v, v', h => by
    simp only [applyRules, Except.ok.injEq] at h
    rw [h]; rfl
  | [], _ :: _, hk, _, _, _ => by simp at hk
  | _ :: _, [], hk, _, _, _ => by simp at hk
  | l :: ls, (n, x) :: kvs, hk, v, v', h => by
    simp only [List.map_cons, List.cons.injEq] at hk
    simp only [applyRules] at h
    cases ha : applyRule v l with
    | error e => rw [ha] at h; simp [bind, Except.bind] at h
    | ok v1 =>
      rw [ha] at h
      have he := applyRule_effect v v1 l n x hk.1 ha
      have ih := settled_of get names dflt read h1 h2 ls kvs hk.2 v1 v' h
      rw [lastRule_cons]
      cases hl : lastRule names kvs with
      | some y => rw [hl] at ih; simpa using ih
      | none =>
        rw [hl] at ih
        simp only at ih
        by_cases hn : n ∈ names
        · simpa [hn, ih] using h1 v v1 n x he hn
        · simpa [hn, ih] using h2 v v1 n x he hn

theorem ruleGet_insert {α : Type} (m : List (Str × α)) (k i : Str) (x : α) :
    mapGet (mapInsert m k x) i = if k = i then some x else mapGet m i := by
  induction m with
  | nil => by_cases h : k = i <;> simp [mapInsert, mapGet, h]
  | cons p m ih =>
    obtain ⟨k', v'⟩ := p
    unfold mapGet at ih ⊢
    by_cases hk : k' = k
    · subst hk
      by_cases h : k' = i <;> simp [mapInsert, h]
    · by_cases h : k' = i
      · have : k ≠ i := fun e => hk (h.trans e.symm)
        rw [mapInsert, if_neg hk]
        simp [h, this]
      · simpa [mapInsert, hk, h] using ih

theorem ruleGet_remove {α : Type} (m : List (Str × α)) (k i : Str) :
    mapGet (mapRemove m k) i = if k = i then none else mapGet m i := by
  unfold mapGet mapRemove
  induction m with
  | nil => simp
  | cons p m ih =>
    obtain ⟨k', v'⟩ := p
    by_cases hk : k' = k
    · subst hk
      by_cases h : k' = i
      · subst h; simp
      · simpa [h] using ih
    · by_cases h : k' = i
      · have : k ≠ i := fun e => hk (h.trans e.symm)
        rw [List.filter_cons_of_pos (by simpa using hk)]
        simp [h, this]
      · simpa [hk, h] using ih

theorem settled_comment (ls : List Str) (kvs : List (Str × Str))
    (hk : ls.map splitRule = kvs.map .ok) (v : RuleVals)
    (h : applyRules RuleVals.default ls = .ok v) :
    SettledBy [s%"comment", s%"note"] ([] : Str) some kvs v.comment := by
  refine settled_of (·.comment) [s%"comment", s%"note"] ([] : Str) some ?_ ?_ ls kvs hk RuleVals.default v h
  · intro v v1 n x he hn
    cases he <;> grind
  · intro v v1 n x he hn
    cases he <;> grind

theorem settled_dateFormat (ls : List Str) (kvs : List (Str × Str))
    (hk : ls.map splitRule = kvs.map .ok) (v : RuleVals)
    (h : applyRules RuleVals.default ls = .ok v) :
    SettledBy [s%"date_format"] s%"%Y/%m/%d" some kvs v.dateFormat := by
  refine settled_of (·.dateFormat) [s%"date_format"] s%"%Y/%m/%d" some ?_ ?_ ls kvs hk RuleVals.default v h
  · intro v v1 n x he hn
    cases he <;> grind
  · intro v v1 n x he hn
    cases he <;> grind

theorem settled_dateStr (ls : List Str) (kvs : List (Str × Str))
    (hk : ls.map splitRule = kvs.map .ok) (v : RuleVals)
    (h : applyRules RuleVals.default ls = .ok v) :
    SettledBy [s%"date"] s%"%date%" some kvs v.dateStr := by
  refine settled_of (·.dateStr) [s%"date"] s%"%date%" some ?_ ?_ ls kvs hk RuleVals.default v h
  · intro v v1 n x he hn
    cases he <;> grind
  · intro v v1 n x he hn
    cases he <;> grind

theorem settled_description (ls : List Str) (kvs : List (Str × Str))
    (hk : ls.map splitRule = kvs.map .ok) (v : RuleVals)
    (h : applyRules RuleVals.default ls = .ok v) :
    SettledBy [s%"description"] s%"%description%" some kvs v.description := by
  refine settled_of (·.description) [s%"description"] s%"%description%" some ?_ ?_ ls kvs hk RuleVals.default v h
  · intro v v1 n x he hn
    cases he <;> grind
  · intro v v1 n x he hn
    cases he <;> grind

theorem settled_payee (ls : List Str) (kvs : List (Str × Str))
    (hk : ls.map splitRule = kvs.map .ok) (v : RuleVals)
    (h : applyRules RuleVals.default ls = .ok v) :
    SettledBy [s%"payee"] ([] : Str) some kvs v.payee := by
  refine settled_of (·.payee) [s%"payee"] ([] : Str) some ?_ ?_ ls kvs hk RuleVals.default v h
  · intro v v1 n x he hn
    cases he <;> grind
  · intro v v1 n x he hn
    cases he <;> grind

theorem settled_status (ls : List Str) (kvs : List (Str × Str))
    (hk : ls.map splitRule = kvs.map .ok) (v : RuleVals)
    (h : applyRules RuleVals.default ls = .ok v) :
    SettledBy [s%"status"] s%"~" some kvs v.status := by
  refine settled_of (·.status) [s%"status"] s%"~" some ?_ ?_ ls kvs hk RuleVals.default v h
  · intro v v1 n x he hn
    cases he <;> grind
  · intro v v1 n x he hn
    cases he <;> grind

theorem settled_decimal (ls : List Str) (kvs : List (Str × Str))
    (hk : ls.map splitRule = kvs.map .ok) (v : RuleVals)
    (h : applyRules RuleVals.default ls = .ok v) :
    SettledBy [s%"decimal", s%"decimal_symbol"] '.' List.head? kvs v.decimal := by
  refine settled_of (·.decimal) [s%"decimal", s%"decimal_symbol"] '.' List.head? ?_ ?_ ls kvs hk
    RuleVals.default v h
  · intro v v1 n x he hn
    cases he <;> grind
  · intro v v1 n x he hn
    cases he <;> grind

theorem settled_skip (ls : List Str) (kvs : List (Str × Str))
    (hk : ls.map splitRule = kvs.map .ok) (v : RuleVals)
    (h : applyRules RuleVals.default ls = .ok v) :
    SettledBy [s%"skip"] 1 parseI32 kvs v.skip := by
  refine settled_of (·.skip) [s%"skip"] 1 parseI32 ?_ ?_ ls kvs hk RuleVals.default v h
  · intro v v1 n x he hn
    cases he <;> grind
  · intro v v1 n x he hn
    cases he <;> grind

theorem settled_accounts (i : Str) (ls : List Str) (kvs : List (Str × Str))
    (hk : ls.map splitRule = kvs.map .ok) (v : RuleVals)
    (h : applyRules RuleVals.default ls = .ok v) :
    SettledBy [s%"account" ++ i] none (fun x => some (some x)) kvs (mapGet v.accounts i) := by
  refine settled_of (fun v => mapGet v.accounts i) [s%"account" ++ i] none (fun x => some (some x)) ?_ ?_ ls kvs
    hk RuleVals.default v h
  · intro v v1 n x he hn
    cases he <;> grind [ruleGet_insert, ruleGet_remove]
  · intro v v1 n x he hn
    cases he <;> grind [ruleGet_insert, ruleGet_remove]

theorem settled_amounts (i : Str) (ls : List Str) (kvs : List (Str × Str))
    (hk : ls.map splitRule = kvs.map .ok) (v : RuleVals)
    (h : applyRules RuleVals.default ls = .ok v) :
    SettledBy [s%"amount" ++ i] none (fun x => some (some x)) kvs (mapGet v.amounts i) := by
  refine settled_of (fun v => mapGet v.amounts i) [s%"amount" ++ i] none (fun x => some (some x)) ?_ ?_ ls kvs
    hk RuleVals.default v h
  · intro v v1 n x he hn
    cases he <;> grind [ruleGet_insert, ruleGet_remove]
  · intro v v1 n x he hn
    cases he <;> grind [ruleGet_insert, ruleGet_remove]

theorem rules_fields : ∀ (ls : List Str) (kvs : List (Str × Str)) (_ : ls.map splitRule = kvs.map .ok)
    (v v' : RuleVals), applyRules v ls = .ok v' →
    v'.fields = v.fields ++
      (kvs.filter fun kv => kv.1 = s%"fields").flatMap fun kv => (splitOn ',' kv.2).map trim
  | [], [], _, v, v', h => by
    simp only [applyRules, Except.ok.injEq] at h
    simp [h]
  | [], _ :: _, hk, _, _, _ => by simp at hk
  | _ :: _, [], hk, _, _, _ => by simp at hk
  | l :: ls, (n, x) :: kvs, hk, v, v', h => by
    simp only [List.map_cons, List.cons.injEq] at hk
    simp only [applyRules] at h
    cases ha : applyRule v l with
    | error e => rw [ha] at h; simp [bind, Except.bind] at h
    | ok v1 =>
      rw [ha] at h
      have he := applyRule_effect v v1 l n x hk.1 ha
      rw [rules_fields ls kvs hk.2 v1 v' h]
      have : v1.fields = v.fields ++ if n = s%"fields" then (splitOn ',' x).map trim else [] := by
        cases he <;> grind
      rw [this]
      by_cases hn : n = s%"fields" <;> simp [hn]

/-- **C65.** Of several values given to a setting the last one counts, and `-` restores the default: for
every setting, from the rules read in order (`kvs`: their names and values). Only `fields` adds up. -/
theorem C65_last_value (ls : List Str) (kvs : List (Str × Str))
    (hk : ls.map splitRule = kvs.map .ok) (v : RuleVals)
    (h : applyRules RuleVals.default ls = .ok v) :
    SettledBy [s%"comment", s%"note"] [] some kvs v.comment ∧
    SettledBy [s%"date"] s%"%date%" some kvs v.dateStr ∧
    SettledBy [s%"date_format"] s%"%Y/%m/%d" some kvs v.dateFormat ∧
    SettledBy [s%"decimal", s%"decimal_symbol"] '.' List.head? kvs v.decimal ∧
    SettledBy [s%"description"] s%"%description%" some kvs v.description ∧
    SettledBy [s%"payee"] [] some kvs v.payee ∧
    SettledBy [s%"skip"] 1 parseI32 kvs v.skip ∧
    SettledBy [s%"status"] s%"~" some kvs v.status ∧
    (∀ i, SettledBy [s%"account" ++ i] none (fun x => some (some x)) kvs (mapGet v.accounts i)) ∧
    (∀ i, SettledBy [s%"amount" ++ i] none (fun x => some (some x)) kvs (mapGet v.amounts i)) ∧
    v.fields = (kvs.filter fun kv => kv.1 = s%"fields").flatMap fun kv => (splitOn ',' kv.2).map trim :=
  ⟨settled_comment ls kvs hk v h, settled_dateStr ls kvs hk v h, settled_dateFormat ls kvs hk v h,
   settled_decimal ls kvs hk v h, settled_description ls kvs hk v h, settled_payee ls kvs hk v h,
   settled_skip ls kvs hk v h, settled_status ls kvs hk v h, fun i => settled_accounts i ls kvs hk v h,
   fun i => settled_amounts i ls kvs hk v h, by simpa [RuleVals.default] using rules_fields ls kvs hk _ v h⟩

/-- Values set, set again and reset. -/
example : ∃ v, applyRules RuleVals.default
      [s%"account1 a:b", s%"payee Shop", s%"account1 c:d", s%"payee  -", s%"skip 3", s%"status !"] =
      .ok v ∧ v.accounts = [(s%"1", s%"c:d")] ∧ v.payee = [] ∧ v.skip = 3 ∧ v.status = s%"!" :=
  ⟨_, rfl, rfl, rfl, rfl, rfl⟩

/-- The single rules among the items. -/
def rootRules (is : List RuleItem) : List Str :=
  is.filterMap fun | .rule l => some l | .block _ _ _ => none

theorem meaning_rules (is : List RuleItem) : ∀ (v : RuleVals) (bs : List (List Str × RuleVals))
    (p : RuleVals × List (List Str × RuleVals)), meaning is v bs = .ok p →
    applyRules v (rootRules is) = .ok p.1 := by
  induction is with
  | nil => intro v bs p h; simp only [meaning, Except.ok.injEq] at h; simp [rootRules, applyRules, ← h]
  | cons i is ih =>
    intro v bs p h
    cases i with
    | rule l =>
      simp only [meaning, bind, Except.bind] at h
      cases ha : applyRule v l with
      | error e => rw [ha] at h; simp at h
      | ok x =>
        rw [ha] at h
        simpa [rootRules, applyRules, ha, bind, Except.bind] using ih _ _ _ h
    | block f more body =>
      simp only [meaning, bind, Except.bind] at h
      cases ha : applyRules v body with
      | error e => rw [ha] at h; simp at h
      | ok x => rw [ha] at h; simpa [rootRules] using ih _ _ _ h

theorem applyRules_append : ∀ (as bs : List Str) (v : RuleVals),
    applyRules v (as ++ bs) = (applyRules v as).bind fun v => applyRules v bs
  | [], bs, v => rfl
  | a :: as, bs, v => by
    simp only [List.cons_append, applyRules, bind, Except.bind]
    cases applyRule v a with
    | error e => rfl
    | ok x => exact applyRules_append as bs x

/-- **C65.** In a rule file that has been read these settings are in force: at root level those given by
the single rules (as `C65_last_value` tells), in a block those given by the single rules above it
followed by its own. -/
theorem C65_read (inc : Rules → Str → Res Rules) (ls : List Str) (is : List RuleItem)
    (hw : ∀ i ∈ is, i.Wf) (hl : ruleLines ls = is.flatMap RuleItem.lines) (r : Rules)
    (h : addLines inc ls Rules.default .root = .ok r) :
    applyRules RuleVals.default (rootRules is) = .ok r.vals ∧
    ∀ above f more body below, is = above ++ .block f more body :: below →
      ∃ v, applyRules RuleVals.default (rootRules above ++ body) = .ok v ∧
        (f.toList ++ more, v) ∈ r.subs.blocks := by
  have h1 := C66_blocks inc ls is hw hl
  rw [h] at h1
  refine ⟨meaning_rules is _ _ _ h1.symm, ?_⟩
  rintro above f more body below rfl
  rw [meaning_append] at h1
  cases ha : meaning above RuleVals.default [] with
  | error e => rw [ha] at h1; simp [Except.bind, Except.map] at h1
  | ok p =>
    rw [ha] at h1
    simp only [Except.bind, meaning, bind] at h1
    rw [applyRules_append, meaning_rules above _ _ _ ha]
    simp only [Except.bind]
    cases hb : applyRules p.1 body with
    | error e => rw [hb] at h1; simp [Except.map] at h1
    | ok v =>
      rw [hb] at h1
      obtain ⟨cs, hc⟩ := meaning_prefix below _ _ _ h1.symm
      simp only at hc
      exact ⟨v, rfl, by rw [hc]; simp⟩

theorem bytes_ascii : ∀ (n rest : Str), (∀ c ∈ n, c.utf8Size = 1) →
    bytesTake n.length (n ++ rest) = some n ∧ bytesDrop n.length (n ++ rest) = some rest
  | [], rest, _ => by cases rest <;> exact ⟨rfl, rfl⟩
  | c :: n, rest, h => by
    obtain ⟨h1, h2⟩ := bytes_ascii n rest fun x hx => h x (by simp [hx])
    have hc := h c (by simp)
    constructor
    · simp [bytesTake, hc, h1]
    · simp [bytesDrop, hc, h2]

theorem posWs_name (n : Str) (s : Char) (rest : Str) (hn : ∀ c ∈ n, isWs c = false) (hs : isWs s = true) :
    posWs (n ++ s :: rest) = some n.length := by
  induction n with
  | nil => simp [posWs, hs]
  | cons c n ih =>
    simp [posWs, hn c (by simp), ih fun x hx => hn x (by simp [hx])]

theorem trimStart_first (s : Str) (h : startsInk s = true ∨ s = []) : trimStart s = s := by
  cases s with
  | nil => rfl
  | cons c cs =>
    rcases h with h | h
    · simp only [startsInk, Bool.not_eq_true'] at h
      simp [trimStart, h]
    · simp at h

/-- **C65.** How a rule is written does not matter: indented or not, name (ASCII) and value are kept
apart by any number of spaces or tabs. -/
theorem C65_layout (indent n value : Str) (s : Char) (gap : Str)
    (hi : ∀ c ∈ indent, isWs c = true) (hn : ∀ c ∈ n, isWs c = false ∧ c.utf8Size = 1) (hne : n ≠ [])
    (hs : s = ' ' ∨ s = '\t') (hg : ∀ c ∈ gap, isWs c = true)
    (hv : startsInk value = true ∨ value = []) :
    splitRule (indent ++ (n ++ s :: (gap ++ value))) = .ok (n, value) := by
  unfold splitRule
  have hst : isWs s = true ∧ s.utf8Size = 1 := by rcases hs with rfl | rfl <;> exact ⟨by decide, by decide⟩
  have h1 : trimStart (indent ++ (n ++ s :: (gap ++ value))) = n ++ s :: (gap ++ value) := by
    rw [trimStart_ws hi]
    cases n with
    | nil => exact absurd rfl hne
    | cons c n => exact trimStart_first _ (.inl (by simp [startsInk, (hn c (by simp)).1]))
  have h2 := posWs_name n s (gap ++ value) (fun c hc => (hn c hc).1) hst.1
  have h3 := (bytes_ascii n (s :: (gap ++ value)) fun c hc => (hn c hc).2).1
  have h4 := (bytes_ascii (n ++ [s]) (gap ++ value) (by
    intro c hc
    rcases List.mem_append.mp hc with hc | hc
    · exact (hn c hc).2
    · rw [List.mem_singleton.mp hc]; exact hst.2)).2
  simp only [List.length_append, List.length_singleton, List.append_assoc, List.singleton_append] at h4
  simp only [h1, h2, h3, h4, unwrap, bind, Except.bind, pure, Except.pure, trimStart_ws (show allWs gap from hg),
    trimStart_first value hv]

example : splitRule s%"\taccount1 \t assets:checking" = .ok (s%"account1", s%"assets:checking") := by
  decide

/-! ### C64: what a pattern matches -/

/-- **C64, refuted.** A pattern is not looked for within the fields: it also matches across the border
of two neighbouring fields, here `shop` in the fields `bookworks` and `hop garden`. -/
theorem C64_across_fields :
    appliesTo (stdEnv ⟨2024, 6, 15, by decide⟩) [s%"shop"] [s%"bookworks", s%"hop garden"] = true ∧
    ¬ ∃ f ∈ ([s%"bookworks", s%"hop garden"] : List Str), s%"shop" <:+: f := by
  refine ⟨by decide +kernel, ?_⟩
  rintro ⟨f, hf, h⟩
  rw [← containsStr_iff] at h
  revert h
  revert f
  decide

/-- **C64, partial.** A block applies if and only if one of its patterns occurs in the fields run
together, without regard to case. In particular it applies whenever a pattern occurs within a field
(for texts whose lower case is taken piece by piece), and a block without patterns never applies.
Missing from the claim: that it applies only then (`C64_across_fields`). -/
theorem C64_patterns_partial (env : Env) (record : List Str) :
    (∀ ps, appliesTo env ps record = true ↔ ∃ p ∈ ps, env.lower p <:+: env.lower record.flatten) ∧
    (∀ ps p f, p ∈ ps → f ∈ record → env.lower p <:+: env.lower f →
      (∀ a b, env.lower (a ++ b) = env.lower a ++ env.lower b) → appliesTo env ps record = true) ∧
    (∀ ps f, record = [f] → (appliesTo env ps record = true ↔ ∃ p ∈ ps, env.lower p <:+: env.lower f)) ∧
    appliesTo env [] record = false := by
  refine ⟨fun ps => appliesTo_iff env ps record, ?_, ?_, rfl⟩
  · intro ps p f hp hf hpf hl
    rw [appliesTo_iff]
    refine ⟨p, hp, hpf.trans ?_⟩
    obtain ⟨a, b, rfl⟩ := List.append_of_mem hf
    simp only [List.flatten_append, List.flatten_cons, hl]
    exact ⟨env.lower a.flatten, env.lower b.flatten, by simp⟩
  · rintro ps f rfl
    rw [appliesTo_iff]
    simp [Applies]

end Silverfox
