import Verif.Props.Include
import Verif.Props.Files

/-
C83: files that include each other.
-/

namespace Silverfox

set_option linter.unusedSectionVars false
variable {M : Type} [Mag M]

/-! ### The bound on the depth of includes -/

theorem parseChunk_deeper (env : Env) (inc inc' : Ledger M × World → Str → Res (Ledger M × World))
    (hinc : ∀ st p, inc st p ≠ panicked → inc' st p = inc st p) (st : Ledger M × World) (chunk : Str)
    (h : Ledger.parseChunk env inc st chunk ≠ panicked) :
    Ledger.parseChunk env inc' st chunk = Ledger.parseChunk env inc st chunk := by
  unfold Ledger.parseChunk at h ⊢
  split at h
  · rename_i hc; rw [if_pos hc, if_pos hc]
  · rename_i hc
    rw [if_neg hc, if_neg hc]
    split at h
    · rfl
    · rename_i kw rest hs
      split
      · rfl
      · rename_i h1
        rw [if_neg h1] at h
        split
        · rfl
        · rename_i h2
          rw [if_neg h2] at h
          split
          · rfl
          · rename_i h3
            rw [if_neg h3] at h
            split
            · rename_i h4
              rw [if_pos h4] at h
              split at h
              · exact hinc _ _ h
              · rfl
            · rfl

theorem addLinesFrom_deeper (env : Env) (inc inc' : Ledger M × World → Str → Res (Ledger M × World))
    (hinc : ∀ st p, inc st p ≠ panicked → inc' st p = inc st p) (ls : List Str) (st : Ledger M × World)
    (chunk : Str) (h : Ledger.addLinesFrom env inc ls st chunk ≠ panicked) :
    Ledger.addLinesFrom env inc' ls st chunk = Ledger.addLinesFrom env inc ls st chunk := by
  induction ls generalizing st chunk with
  | nil => exact parseChunk_deeper env inc inc' hinc st chunk h
  | cons l ls ih =>
    simp only [Ledger.addLinesFrom] at h ⊢
    generalize removeComments (trimEnd l) = x at h ⊢
    cases x with
    | nil => exact ih _ _ h
    | cons c r =>
      simp only at h ⊢
      split at h
      · rename_i hw; rw [if_pos hw, if_pos hw]; exact ih _ _ h
      · rename_i hw
        rw [if_neg hw, if_neg hw]
        simp only [bind, Except.bind] at h ⊢
        have hp : Ledger.parseChunk env inc st chunk ≠ panicked := by
          intro hp; rw [hp] at h; exact h rfl
        rw [parseChunk_deeper env inc inc' hinc st chunk hp]
        cases hq : Ledger.parseChunk env inc st chunk with
        | error f => rfl
        | ok st' => rw [hq] at h; exact ih _ _ h

theorem addFromFile_deeper (env : Env) (f : Nat) (st : Ledger M × World) (p : Str)
    (h : Ledger.addFromFile env f st p ≠ panicked) :
    Ledger.addFromFile env (f + 1) st p = Ledger.addFromFile env f st p := by
  induction f generalizing st p with
  | zero => exact absurd rfl h
  | succ f ih =>
    rw [Ledger.addFromFile] at h
    rw [Ledger.addFromFile, Ledger.addFromFile]
    cases hr : st.2.read p with
    | none => rfl
    | some s =>
      simp only [hr] at h ⊢
      exact addLinesFrom_deeper env _ _ (fun st p h => ih st p h) _ _ _ h

/-- C83: the room on the stack never changes what is loaded; too little of it can only abort. -/
theorem C83_depth_only_aborts (env : Env) (f k : Nat) (w : World) (p : Str)
    (h : (Ledger.fromFile env f w p : Res (Ledger M × World)) ≠ panicked) :
    (Ledger.fromFile env (f + k) w p : Res (Ledger M × World)) = Ledger.fromFile env f w p := by
  induction k with
  | zero => rfl
  | succ k ih =>
    rw [← ih]
    exact addFromFile_deeper env (f + k) _ p (by
      have : (Ledger.fromFile env (f + k) w p : Res (Ledger M × World)) ≠ panicked := by rw [ih]; exact h
      exact this)

/-! ### Cycles -/

theorem resolve_absolute (c1 c2 : APath) (p : Str) (h : p.head? = some '/') : resolve c1 p = resolve c2 p := by
  unfold resolve
  rw [if_pos h, if_pos h]

theorem addLinesFrom_includes (env : Env) (inc : Ledger M × World → Str → Res (Ledger M × World)) (q : Str)
    (ls : List Str) (st : Ledger M × World) (chunk : Str) (more : List Str)
    (hc : splitWs chunk = s%"include" :: q :: more) (hinc : inc st q = panicked) :
    Ledger.addLinesFrom env inc ls st chunk = panicked := by
  have hchunk : ∀ chunk more, splitWs chunk = s%"include" :: q :: more →
      Ledger.parseChunk env inc st chunk = panicked := by
    intro chunk more hc
    unfold Ledger.parseChunk
    have hne : chunk.isEmpty = false := by
      cases chunk with
      | nil => cases hc
      | cons => rfl
    rw [hne, hc]
    simp only [Bool.false_eq_true, if_false]
    rw [if_neg (by decide), if_neg (by decide), if_neg (by decide), if_pos trivial]
    exact hinc
  induction ls generalizing chunk more with
  | nil => exact hchunk chunk more hc
  | cons l ls ih =>
    simp only [Ledger.addLinesFrom]
    split
    · exact ih chunk more hc
    · rename_i c r hl
      split
      · refine ih _ (more ++ splitWs (c :: r)) ?_
        rw [splitWs_append_ws _ (by decide), hc, hl]
        rfl
      · rw [hchunk chunk more hc]
        rfl

/-- Specification: the file begins with a directive that includes `q`. -/
def BeginsWithInclude (text q : Str) : Prop :=
  ∃ first rest more, lines text = first :: rest ∧ (∀ c, first.head? = some c → isWs c = false) ∧
    splitWs (removeComments first) = s%"include" :: q :: more

/-- C83, refuted: files that include each other, in a cycle of any length, abort the program; no
error is reported. `S` is a set of absolute paths; every file in it begins by including one in it. However
much room there is on the stack, it does not suffice. -/
theorem C83_cycle_aborts (env : Env) (w : World) (S : Str → Prop)
    (hS : ∀ p, S p → p.head? = some '/' ∧ endsInName p = true ∧
      ∃ q text, S q ∧ w.file (resolve [] p) = some text ∧ BeginsWithInclude text q)
    (p : Str) (hp : S p) (fuel : Nat) : (Ledger.fromFile env fuel w p : Res (Ledger M × World)) = panicked := by
  have key : ∀ (fuel : Nat) (st : Ledger M × World) (p : Str), st.2.file = w.file → S p →
      Ledger.addFromFile env fuel st p = panicked := by
    intro fuel
    induction fuel with
    | zero => intro st p _ _; rfl
    | succ f ih =>
      intro st p hf hp
      obtain ⟨h1, h2, q, text, h3, h4, first, rest, more, h5, h6, h7⟩ := hS p hp
      rw [Ledger.addFromFile]
      have hr : st.2.read p = some text := by
        unfold World.read
        rw [if_pos h2, hf, resolve_absolute _ [] p h1, h4]
      simp only [hr, h5]
      rw [Ledger.addLinesFrom]
      have htok : splitWs (removeComments (trimEnd first)) = s%"include" :: q :: more := by
        rw [effective_tokens]; exact h7
      split
      · rename_i he
        rw [he] at htok
        cases htok
      · rename_i c r he
        have hcw : isWs c = false := by
          apply h6 c
          cases first with
          | nil => rw [show removeComments (trimEnd []) = [] from rfl] at he; cases he
          | cons d ds =>
            have : (removeComments (trimEnd (d :: ds))).head? = some d := by
              obtain ⟨z, hz⟩ : ∃ z, removeComments (trimEnd (d :: ds)) ++ z = d :: ds := by
                obtain ⟨b, _, hb, _⟩ := trimEnd_spec (d :: ds)
                obtain ⟨z, hz, _⟩ := rc_append_rest (trimEnd (d :: ds))
                rw [removeComments_eq_rc]
                exact ⟨z ++ b, by rw [← List.append_assoc, ← hz, ← hb]⟩
              rw [he] at hz ⊢
              simp at hz ⊢
              exact hz.1
            rw [he] at this
            simpa using this.symm
        rw [if_neg (by simp [hcw])]
        have hpc : Ledger.parseChunk env (Ledger.addFromFile env f) (st.1, st.2.cdParent p) []
            = .ok (st.1, st.2.cdParent p) := rfl
        simp only [bind, Except.bind, hpc]
        rw [he] at htok ⊢
        exact addLinesFrom_includes env _ q rest _ _ more htok (ih _ q hf h3)
  exact key fuel _ p rfl hp

/-! ### Rules files that include rules files -/

theorem rulesLine_deeper (inc inc' : Rules → Str → Res Rules)
    (hinc : ∀ r p, inc r p ≠ panicked → inc' r p = inc r p) (r : Rules) (l : Str)
    (h : addLine inc r l ≠ panicked) : addLine inc' r l = addLine inc r l := by
  unfold addLine at h ⊢
  simp only [bind, Except.bind] at h ⊢
  cases hs : splitRule l with
  | error x => rfl
  | ok nv =>
    rw [hs] at h
    simp only at h ⊢
    split
    · rename_i hi; rw [if_pos hi] at h; exact hinc _ _ h
    · rfl

theorem rootLine_deeper (inc inc' : Rules → Str → Res Rules)
    (hinc : ∀ r p, inc r p ≠ panicked → inc' r p = inc r p) (r : Rules) (l : Str)
    (h : rootLine inc r l ≠ panicked) : rootLine inc' r l = rootLine inc r l := by
  unfold rootLine at h ⊢
  split
  · rfl
  · rename_i hi
    rw [if_neg hi] at h
    simp only [bind, Except.bind] at h ⊢
    rw [rulesLine_deeper inc inc' hinc r l (fun e => h (by rw [e]; rfl))]

theorem stepLine_deeper (inc inc' : Rules → Str → Res Rules)
    (hinc : ∀ r p, inc r p ≠ panicked → inc' r p = inc r p) (r : Rules) (b : Block) (l : Str)
    (h : stepLine inc r b l ≠ panicked) : stepLine inc' r b l = stepLine inc r b l := by
  unfold stepLine at h ⊢
  simp only at h ⊢
  split
  · rfl
  · rename_i hi
    rw [if_neg hi] at h
    cases b with
    | root => exact rootLine_deeper inc inc' hinc _ _ h
    | sub ps s inRules =>
      simp only at h ⊢
      split
      · rename_i hk
        rw [if_pos hk] at h
        simp only [bind, Except.bind] at h ⊢
        rw [rulesLine_deeper inc inc' hinc s _ (fun e => h (by rw [e]; rfl))]
      · rename_i hk
        rw [if_neg hk] at h
        split
        · rfl
        · rename_i hk'
          rw [if_neg hk'] at h
          exact rootLine_deeper inc inc' hinc _ _ h

theorem addLines_deeper (inc inc' : Rules → Str → Res Rules)
    (hinc : ∀ r p, inc r p ≠ panicked → inc' r p = inc r p) (ls : List Str) (r : Rules) (b : Block)
    (h : addLines inc ls r b ≠ panicked) : addLines inc' ls r b = addLines inc ls r b := by
  induction ls generalizing r b with
  | nil => cases b <;> rfl
  | cons l ls ih =>
    simp only [addLines, bind, Except.bind] at h ⊢
    have hp : stepLine inc r b l ≠ panicked := fun e => h (by rw [e]; rfl)
    rw [stepLine_deeper inc inc' hinc r b l hp]
    cases hq : stepLine inc r b l with
    | error x => rfl
    | ok rb => rw [hq] at h; exact ih _ _ h

theorem addRulesFile_deeper (w : World) (f : Nat) (r : Rules) (p : Str)
    (h : addRulesFile w f r p ≠ panicked) : addRulesFile w (f + 1) r p = addRulesFile w f r p := by
  induction f generalizing r p with
  | zero => exact absurd rfl h
  | succ f ih =>
    rw [addRulesFile] at h
    rw [addRulesFile, addRulesFile]
    cases hr : w.read p with
    | none => rfl
    | some s =>
      simp only [hr] at h ⊢
      exact addLines_deeper _ _ (fun r p h => ih r p h) _ _ _ h

theorem addRulesFile_deeper_add (w : World) (f k : Nat) (r : Rules) (p : Str)
    (h : addRulesFile w f r p ≠ panicked) : addRulesFile w (f + k) r p = addRulesFile w f r p := by
  induction k with
  | zero => rfl
  | succ k ih =>
    rw [← ih]
    exact addRulesFile_deeper w (f + k) r p (by rw [ih]; exact h)

/-- C83, for rules: the room on the stack never changes the rules and records read for an import. -/
theorem C83_rules_depth_only_aborts (env : Env) (w : World) (f k : Nat) (csvFile : Str) (rulesFile : Option Str)
    (h : importerFromFile env w f csvFile rulesFile ≠ panicked) :
    importerFromFile env w (f + k) csvFile rulesFile = importerFromFile env w f csvFile rulesFile := by
  unfold importerFromFile at h ⊢
  cases h1 : w.read csvFile with
  | none => rfl
  | some csv =>
    simp only [h1] at h ⊢
    cases h2 : w.read (rulesFile.getD (csvFile ++ s%".rules")) with
    | none => rfl
    | some rules =>
      rw [h2] at h
      simp only [importerFromStrs, bind, Except.bind] at h ⊢
      rw [addLines_deeper (addRulesFile w f) (addRulesFile w (f + k))
        (fun r p h => addRulesFile_deeper_add w f k r p h) _ _ _ (fun e => h (by rw [e]; rfl))]

/-- Specification: the rules file begins with a line that includes `q`. -/
def RulesBeginWithInclude (text q : Str) : Prop :=
  ∃ first rest kw, lines text = first :: rest ∧ (kw = s%"include" ∨ kw = s%"use") ∧
    removeComments first = kw ++ ' ' :: q

theorem addLine_include (inc : Rules → Str → Res Rules) (r : Rules) (kw q : Str)
    (hkw : kw = s%"include" ∨ kw = s%"use") (hq : trimStart q = q) :
    addLine inc r (kw ++ ' ' :: q) = inc r q := by
  unfold addLine splitRule
  rcases hkw with rfl | rfl
  · have h1 : trimStart (s%"include" ++ ' ' :: q) = s%"include" ++ ' ' :: q := rfl
    have h2 : posWs (s%"include" ++ ' ' :: q) = some 7 := rfl
    have h3 : bytesTake 7 (s%"include" ++ ' ' :: q) = some s%"include" := rfl
    have h4 : bytesDrop 8 (s%"include" ++ ' ' :: q) = some q := by cases q <;> rfl
    simp only [h1, h2, h3, h4, bind, Except.bind, unwrap, pure, Except.pure, hq]
    rfl
  · have h1 : trimStart (s%"use" ++ ' ' :: q) = s%"use" ++ ' ' :: q := rfl
    have h2 : posWs (s%"use" ++ ' ' :: q) = some 3 := rfl
    have h3 : bytesTake 3 (s%"use" ++ ' ' :: q) = some s%"use" := rfl
    have h4 : bytesDrop 4 (s%"use" ++ ' ' :: q) = some q := by cases q <;> rfl
    simp only [h1, h2, h3, h4, bind, Except.bind, unwrap, pure, Except.pure, hq]
    rfl

/-- C83, refuted for rules too: rules files that include each other abort the program, for every csv file. -/
theorem C83_rules_cycle_aborts (env : Env) (w : World) (S : Str → Prop)
    (hS : ∀ p, S p → ∃ q text, S q ∧ trimStart q = q ∧ w.read p = some text ∧ RulesBeginWithInclude text q)
    (csvFile p csv : Str) (hp : S p) (hcsv : w.read csvFile = some csv) (fuel : Nat) :
    importerFromFile env w fuel csvFile (some p) = panicked := by
  have line : ∀ (fuel : Nat), (∀ r q, S q → addRulesFile w fuel r q = panicked) →
      ∀ p text r, S p → w.read p = some text →
        addLines (addRulesFile w fuel) (lines text) r .root = panicked := by
    intro fuel ih p text r hp ht
    obtain ⟨q, text', h1, h2, h3, first, rest, kw, h4, h5, h6⟩ := hS p hp
    cases ht.symm.trans h3
    rw [h4]
    simp only [addLines, bind, Except.bind]
    have : stepLine (addRulesFile w fuel) r .root first = panicked := by
      unfold stepLine
      simp only [h6]
      rw [if_neg (fun he => by
        have ha := trim_eq_nil.1 (List.isEmpty_iff.1 he)
        rcases h5 with rfl | rfl <;> exact absurd (ha _ (List.mem_append_left _ (List.mem_cons_self ..))) (by decide))]
      unfold rootLine
      rw [if_neg (by rcases h5 with rfl | rfl <;> simp [startsWith])]
      rw [addLine_include _ _ _ _ h5 h2, ih _ _ h1]
      rfl
    rw [this]; rfl
  have key : ∀ (fuel : Nat) r q, S q → addRulesFile w fuel r q = panicked := by
    intro fuel
    induction fuel with
    | zero => intro r q _; rfl
    | succ f ih =>
      intro r q hq
      obtain ⟨_, text, _, _, h3, _⟩ := hS q hq
      rw [addRulesFile, h3]
      exact line f ih q text r hq h3
  obtain ⟨_, text, _, _, h3, _⟩ := hS p hp
  unfold importerFromFile
  rw [hcsv]
  simp only [Option.getD_some, h3, importerFromStrs, bind, Except.bind]
  rw [line fuel (key fuel) p text _ hp h3]
  rfl

/-- Two files that include each other. -/
def cyclicDisk : World := disk [("a", "include /h/b ; more\n"), ("b", "include /h/a\naccount x\n")]

/-- C83, a witness: they meet the conditions. -/
theorem C83_two_files_abort (env : Env) (fuel : Nat) :
    (Ledger.fromFile env fuel cyclicDisk s%"/h/a" : Res (Ledger F64 × World)) = panicked := by
  refine C83_cycle_aborts env cyclicDisk (fun p => p = s%"/h/a" ∨ p = s%"/h/b") ?_ _ (Or.inl rfl) fuel
  rintro p (rfl | rfl)
  · exact ⟨rfl, by decide, s%"/h/b", _, Or.inr rfl, rfl, s%"include /h/b ; more", [], [], by decide,
      by decide, by decide⟩
  · exact ⟨rfl, by decide, s%"/h/a", _, Or.inl rfl, rfl, s%"include /h/a", [s%"account x"], [], by decide,
      by decide, by decide⟩

/-- Two rules files that include each other. -/
def cyclicRules : World := disk [("c", "x\n"), ("r", "include s\n"), ("s", "use r\n")]

/-- C83, a witness for rules files: they meet the conditions. -/
theorem C83_two_rules_files_abort (env : Env) (fuel : Nat) :
    importerFromFile env cyclicRules fuel s%"c" (some s%"r") = panicked := by
  refine C83_rules_cycle_aborts env cyclicRules (fun p => p = s%"r" ∨ p = s%"s") ?_ _ _ s%"x\n" (Or.inl rfl) rfl fuel
  rintro p (rfl | rfl)
  · exact ⟨s%"s", _, Or.inr rfl, rfl, rfl, s%"include s", [], _, by decide, Or.inl rfl, by decide⟩
  · exact ⟨s%"r", _, Or.inl rfl, rfl, rfl, s%"use r", [], _, by decide, Or.inr rfl, by decide⟩

/-- C83 is not about every file that is included twice: this loads. -/
example : ∃ r : Ledger Rat × World, Ledger.fromFile (stdEnv june15) 3
      (disk [("a", "include b\naccount y\n"), ("b", "account x\n")]) s%"a" = .ok r ∧ r.1.accounts.length = 2 := by
  decide +kernel

end Silverfox
