import Verif.Props.LineEnds
import Verif.Props.Comments

/-
Comments and blank lines in whole sessions: C48 and C49 for sequences of commands, of which some fill
envelopes and extend the journals.
-/

namespace Silverfox

set_option linter.unusedSectionVars false
variable {M : Type} [Mag M]

/-- Texts whose lines, but for those that say nothing and the ends of lines, differ in comments. -/
def CommentedText (s s' : Str) : Prop :=
  ∃ ls ls', (∀ l ∈ ls, noNl l) ∧ (∀ l ∈ ls', noNl l) ∧ eff (lines s) = eff ls ∧ eff (lines s') = eff ls' ∧
    Commented false ls ls'

/-- Worlds whose files differ in comments. -/
structure CommentedWorlds (w w' : World) : Prop where
  cwd : w'.cwd = w.cwd
  canAppend : w'.canAppend = w.canAppend
  file : ∀ p, (w.file p = none ∧ w'.file p = none) ∨
    ∃ s s', w.file p = some s ∧ w'.file p = some s' ∧ CommentedText s s'

theorem CommentedWorlds.of {w w' : World} (h : SameUpToComments w w') (ha : w'.canAppend = w.canAppend) :
    CommentedWorlds w w' := by
  refine ⟨h.1.symm, ha, fun p => ?_⟩
  have := h.2 p
  split at this
  · rename_i h1 h2; exact .inl ⟨h1, h2⟩
  · rename_i s t h1 h2
    exact .inr ⟨s, t, h1, h2, lines s, lines t, lines_noNl s, lines_noNl t, rfl, rfl, this⟩
  · exact this.elim

theorem CommentedText.append {s s' : Str} (h : CommentedText s s') (t : Str) :
    CommentedText (s ++ '\n' :: t) (s' ++ '\n' :: t) := by
  obtain ⟨ls, ls', h1, h2, h3, h4, h5⟩ := h
  refine ⟨ls ++ lines t, ls' ++ lines t, ?_, ?_, ?_, ?_, h5.append_same _⟩
  · intro l hl
    rcases List.mem_append.1 hl with h | h
    · exact h1 l h
    · exact lines_noNl t l h
  · intro l hl
    rcases List.mem_append.1 hl with h | h
    · exact h2 l h
    · exact lines_noNl t l h
  · rw [eff_lines_append, eff_append, h3]
  · rw [eff_lines_append, eff_append, h4]

theorem CommentedWorlds.cd {w w' : World} (h : CommentedWorlds w w') (c : APath) :
    CommentedWorlds { w with cwd := c } { w' with cwd := c } := ⟨rfl, h.canAppend, h.file⟩

theorem CommentedWorlds.cdParent {w w' : World} (h : CommentedWorlds w w') (p : Str) :
    CommentedWorlds (w.cdParent p) (w'.cdParent p) :=
  ⟨by simp only [World.cdParent, h.cwd], h.canAppend, h.file⟩

theorem addFromFile_commented (env : Env) (fuel : Nat) (st st' : Ledger M × World)
    (hst : RelSt CommentedWorlds st st') (p : Str) :
    RelRes (RelSt CommentedWorlds) (Ledger.addFromFile env fuel st p) (Ledger.addFromFile env fuel st' p) := by
  induction fuel generalizing st st' p with
  | zero => exact rfl
  | succ f ih =>
    simp only [Ledger.addFromFile, World.read]
    rw [hst.2.cwd]
    cases h1 : endsInName p with
    | false => exact rfl
    | true =>
      simp only [if_true]
      rcases hst.2.file (resolve st.2.cwd p) with ⟨h2, h3⟩ | ⟨s, s', h2, h3, ls, ls', hn, hn', he, he', hc⟩
      · rw [h2, h3]; exact rfl
      · rw [h2, h3]
        simp only [addLinesFrom_eff, he, he']
        rw [← addLinesFrom_eff, ← addLinesFrom_eff]
        exact addLinesFrom_rel env _ (fun a b q hab => ih a b hab q) false _ _ hc hn hn'
          (st.1, st.2.cdParent p) (st'.1, st'.2.cdParent p) ⟨hst.1, hst.2.cdParent p⟩ [] []
          ⟨.refl _, Or.inl ⟨rfl, rfl⟩⟩

theorem appendEntry_commented (env : Env) (w w' : World) (h : CommentedWorlds w w') (l : Ledger M) (e : Entry M) :
    CommentedWorlds (l.appendEntry env w e).1 (l.appendEntry env w' e).1 ∧
    (l.appendEntry env w' e).2 = (l.appendEntry env w e).2 := by
  unfold Ledger.appendEntry World.append
  simp only [h.cwd, h.canAppend]
  rcases h.file (resolve w.cwd l.filePath) with ⟨h2, h3⟩ | ⟨s, s', h2, h3, hc⟩
  · simp only [h2, h3]
    split
    · exact ⟨h, rfl⟩
    · split
      · exact ⟨h, rfl⟩
      · split <;> rename_i hx
        · exact ⟨h, rfl⟩
        · split at hx <;> cases hx
  · simp only [h2, h3, Option.isSome_some, Bool.and_true]
    cases hb : (endsInName l.filePath && w.canAppend (resolve w.cwd l.filePath)) with
    | false => simp only [Bool.not_false, if_true]; exact ⟨h, trivial⟩
    | true =>
      simp only [Bool.not_true, Bool.false_eq_true, if_false, if_true]
      split
      · exact ⟨h, rfl⟩
      · refine ⟨⟨h.cwd, h.canAppend, fun p => ?_⟩, rfl⟩
        simp only [World.write]
        by_cases hp : p = resolve w.cwd l.filePath
        · simp only [hp, if_true]
          exact .inr ⟨_, _, rfl, rfl, hc.append _⟩
        · simp only [hp, if_false]
          exact h.file p

theorem fillEnvelopes_commented (env : Env) (w w' : World) (h : CommentedWorlds w w') (l : Ledger M) :
    CommentedWorlds (l.fillEnvelopes env w).1 (l.fillEnvelopes env w').1 ∧
    (l.fillEnvelopes env w').2 = (l.fillEnvelopes env w).2 := by
  unfold Ledger.fillEnvelopes
  split
  · exact ⟨h, rfl⟩
  · simp only
    split
    · exact ⟨h, rfl⟩
    · exact appendEntry_commented env w w' h l _

theorem runSub_commented (env : Env) (o : Outside) (f : Flags) (hf : f.sub ≠ .import_) (w w' : World)
    (h : CommentedWorlds w w') (l : Ledger M) :
    CommentedWorlds (runSub env o f w l).1 (runSub env o f w' l).1 ∧
    (runSub env o f w' l).2 = (runSub env o f w l).2 := by
  rw [runSub_world _ _ _ _ _ hf, runSub_world _ _ _ _ _ hf]
  refine ⟨h, ?_⟩
  unfold runSub
  split
  · rfl
  · rfl
  · split <;> rfl
  · rename_i hs; exact absurd hs hf
  · rfl
  · rfl

theorem mainProgram_commented (env : Env) (o : Outside) (args : List Str)
    (ha : ∀ f, Flags.parse args = .ok (some f) → f.sub ≠ .import_) (w w' : World) (h : CommentedWorlds w w') :
    CommentedWorlds (mainProgram M env o args w).1 (mainProgram M env o args w').1 ∧
    (mainProgram M env o args w').2 = (mainProgram M env o args w).2 := by
  unfold mainProgram
  split
  · exact ⟨h, rfl⟩
  · exact ⟨h, rfl⟩
  · rename_i f hf
    have hi := ha f hf
    unfold execute
    split
    · exact ⟨h, rfl⟩
    · rename_i path _
      have hl := addFromFile_commented (M := M) env o.fuel (Ledger.new path, w) (Ledger.new path, w') ⟨rfl, h⟩ path
      unfold Ledger.fromFile
      generalize (Ledger.addFromFile env o.fuel (Ledger.new path, w) path : Res (Ledger M × World)) = r at hl
      generalize (Ledger.addFromFile env o.fuel (Ledger.new path, w') path : Res (Ledger M × World)) = r' at hl
      cases r with
      | error x =>
        cases r' with
        | error y => cases (show x = y from hl); exact ⟨h, rfl⟩
        | ok b => exact hl.elim
      | ok a =>
        cases r' with
        | error y => exact hl.elim
        | ok b =>
          obtain ⟨l, w1⟩ := a
          obtain ⟨l', w1'⟩ := b
          obtain ⟨he, h1⟩ := hl
          simp only at he h1
          subst he
          simp only
          split
          · exact runSub_commented env o f hi _ _ h1 l
          · obtain ⟨h2, h3⟩ := fillEnvelopes_commented env w1 _ h1 l
            cases h4 : l.fillEnvelopes env w1 with
            | mk w2 r =>
              cases h5 : l.fillEnvelopes env w1' with
              | mk w3 r' =>
                rw [h4, h5] at h2 h3
                simp only at h2 h3
                subst h3
                cases r' with
                | error x => exact ⟨h2, rfl⟩
                | ok l => exact runSub_commented env o f hi _ _ h2 l

/-- C49 for whole sessions (partial as `C49_comments_partial` is: not the first line of an envelope): with
comments changed in the journals, every sequence of commands that import nothing prints the same, or fails
in the same way, although envelopes may be filled and the journals extended in between. -/
theorem C49_sessions_partial (M : Type) [Mag M] (env : Env) (rs : List Run) (w w' : World)
    (h : SameUpToComments w w') (hw : w'.canAppend = w.canAppend)
    (hr : ∀ r ∈ rs, ∀ f, Flags.parse r.args = .ok (some f) → f.sub ≠ .import_) :
    printed M env rs w' = printed M env rs w := by
  have key : ∀ w w' : World, CommentedWorlds w w' → printed M env rs w' = printed M env rs w := by
    clear h hw
    induction rs with
    | nil => intro _ _ _; rfl
    | cons r rs ih =>
      intro w w' h
      obtain ⟨h1, h2⟩ := mainProgram_commented (M := M) (r.env env) r.out r.args (hr r (by simp)) _ _
        (h.cd r.cwd)
      simp only [printed]
      rw [h2, ih (fun r h => hr r (by simp [h])) (r.exec M env w) (r.exec M env w') h1]
  exact key w w' (.of h hw)

/-- C48 for whole sessions: blank lines and lines of comments may be added and removed. -/
theorem C48_sessions (M : Type) [Mag M] (env : Env) (rs : List Run) (w w' : World)
    (h : SameUpToBlankLines w w') (hw : w'.canAppend = w.canAppend)
    (hr : ∀ r ∈ rs, ∀ f, Flags.parse r.args = .ok (some f) → f.sub ≠ .import_) :
    printed M env rs w' = printed M env rs w := by
  refine C49_sessions_partial M env rs w w' ⟨h.1, fun p => ?_⟩ hw hr
  have := h.2 p
  split at this
  · trivial
  · exact Commented.of_filter _ _ _ this
  · exact this.elim

/-- The journals with and without comments shown at C49 meet the hypotheses. -/
example : SameUpToComments plainDisk commentedDisk ∧ commentedDisk.canAppend = plainDisk.canAppend :=
  ⟨example_commented, rfl⟩

end Silverfox
