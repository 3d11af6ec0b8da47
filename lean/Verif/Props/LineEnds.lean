import Verif.Props.Sessions

/-
Line endings, C102: what a journal says does not depend on how its lines end.
-/

namespace Silverfox

set_option linter.unusedSectionVars false
variable {M : Type} [Mag M]

/-! ### Specification -/

/-- Specification: two texts with the same lines. Each line may end in a line feed, or in a carriage
return and a line feed, and after the last line there may be no ending at all. (A carriage return
occurs only before a line feed.) -/
inductive Endings : Str → Str → Prop
  | nil : Endings [] []
  | char {c s t} : c ≠ '\n' → c ≠ '\r' → Endings s t → Endings (c :: s) (c :: t)
  | unix {s t} : Endings s t → Endings ('\n' :: s) ('\n' :: t)
  | toDos {s t} : Endings s t → Endings ('\n' :: s) ('\r' :: '\n' :: t)
  | toUnix {s t} : Endings s t → Endings ('\r' :: '\n' :: s) ('\n' :: t)
  | dos {s t} : Endings s t → Endings ('\r' :: '\n' :: s) ('\r' :: '\n' :: t)
  | addUnix : Endings [] ['\n']
  | addDos : Endings [] ['\r', '\n']
  | dropUnix : Endings ['\n'] []
  | dropDos : Endings ['\r', '\n'] []

/-- Specification: the same files, up to line endings. -/
structure SameButEndings (w w' : World) : Prop where
  cwd : w'.cwd = w.cwd
  canAppend : w'.canAppend = w.canAppend
  file : ∀ p, match w.file p, w'.file p with
    | none, none => True
    | some s, some t => Endings s t
    | _, _ => False

/-- What is printed, or what fails, in a sequence of runs. -/
def printed (M : Type) [Mag M] (env : Env) : List Run → World → List (Res (List Str))
  | [], _ => []
  | r :: rs, w => (mainProgram M (r.env env) r.out r.args { w with cwd := r.cwd }).2 ::
      printed M env rs (r.exec M env w)

/-- The text with each line feed preceded by a carriage return. -/
def dosText (s : Str) : Str := s.flatMap fun c => if c = '\n' then ['\r', '\n'] else [c]

theorem endings_dosText (s : Str) (h : '\r' ∉ s) : Endings s (dosText s) := by
  induction s with
  | nil => exact .nil
  | cons c s ih =>
    have := ih (fun hc => h (by simp [hc]))
    by_cases hc : c = '\n'
    · subst hc; exact .toDos this
    · have : Endings (c :: s) (c :: dosText s) := .char hc (fun he => h (by simp [he])) this
      simpa [dosText, hc] using this

/-! ### Lines -/

theorem consHead_snoc (c : Char) (ls : List Str) :
    consHead c (ls ++ [[]]) = consHead c ls ∨ consHead c (ls ++ [[]]) = consHead c ls ++ [[]] := by
  cases ls with
  | nil => exact .inl rfl
  | cons l ls => exact .inr rfl

theorem lines_crnl (s : Str) : lines ('\r' :: '\n' :: s) = [] :: lines s := by
  simp [lines]

/-- The lines are the same, or one of the two texts has an empty line more at its end. -/
theorem Endings.same_lines {s t : Str} (h : Endings s t) :
    lines s = lines t ∨ lines t = lines s ++ [[]] ∨ lines s = lines t ++ [[]] := by
  have step : ∀ {a b : List Str}, (a = b ∨ b = a ++ [[]] ∨ a = b ++ [[]]) →
      (([] : Str) :: a = [] :: b ∨ [] :: b = ([] :: a) ++ [[]] ∨ [] :: a = ([] :: b) ++ [[]]) := by
    rintro a b (h | h | h) <;> simp [h]
  induction h with
  | nil => exact .inl rfl
  | @char c s t h1 h2 _ ih =>
    rw [lines_cons_of h1 (fun h => h2 h.1), lines_cons_of h1 (fun h => h2 h.1)]
    rcases ih with h | h | h
    · rw [h]; exact .inl rfl
    · rw [h]
      rcases consHead_snoc c (lines s) with h | h
      · exact .inl h.symm
      · exact .inr (.inl h)
    · rw [h]
      rcases consHead_snoc c (lines t) with h | h
      · exact .inl h
      · exact .inr (.inr h)
  | unix _ ih => rw [lines_nl, lines_nl]; exact step ih
  | toDos _ ih => rw [lines_nl, lines_crnl]; exact step ih
  | toUnix _ ih => rw [lines_crnl, lines_nl]; exact step ih
  | dos _ ih => rw [lines_crnl, lines_crnl]; exact step ih
  | addUnix => exact .inr (.inl (by decide))
  | addDos => exact .inr (.inl (by decide))
  | dropUnix => exact .inr (.inr (by decide))
  | dropDos => exact .inr (.inr (by decide))

theorem Endings.same_eff {s t : Str} (h : Endings s t) : eff (Silverfox.lines s) = Silverfox.eff (Silverfox.lines t) := by
  have he : Silverfox.eff [[]] = [] := by decide
  rcases h.same_lines with h | h | h <;> rw [h]
  · rw [eff_append, he, List.append_nil]
  · rw [eff_append, he, List.append_nil]

/-! ### Loading -/

/-- The same files, up to lines that say nothing and ends of lines. -/
structure SameEff (w w' : World) : Prop where
  cwd : w'.cwd = w.cwd
  canAppend : w'.canAppend = w.canAppend
  file : ∀ p, (w'.file p).map (fun s => eff (lines s)) = (w.file p).map (fun s => eff (lines s))

theorem SameButEndings.same_eff {w w' : World} (h : SameButEndings w w') : SameEff w w' := by
  refine ⟨h.cwd, h.canAppend, fun p => ?_⟩
  have := h.file p
  split at this
  · rename_i h1 h2; rw [h1, h2]
  · rename_i s t h1 h2; rw [h1, h2]; exact congrArg some this.same_eff.symm
  · exact this.elim

/-- The state in the other world. -/
def inWorld (w' : World) (st : Ledger M × World) : Ledger M × World := (st.1, { w' with cwd := st.2.cwd })

/-- The outcome in the other world. -/
def EqualOutcome (w w' : World) (r r' : Res (Ledger M × World)) : Prop :=
  r' = r.map (inWorld w') ∧ ∀ st, r = .ok st → st.2.file = w.file ∧ st.2.canAppend = w.canAppend

theorem EqualOutcome.ok {w w' : World} {st : Ledger M × World} (h : st.2.file = w.file)
    (h' : st.2.canAppend = w.canAppend) :
    EqualOutcome w w' (.ok st) (.ok (inWorld w' st)) :=
  ⟨rfl, fun _ he => by cases he; exact ⟨h, h'⟩⟩

theorem EqualOutcome.error {w w' : World} (f : Fail) :
    EqualOutcome w w' (.error f : Res (Ledger M × World)) (.error f) :=
  ⟨rfl, fun _ he => by cases he⟩

theorem EqualOutcome.bind {w w' : World} {r r' : Res (Ledger M × World)}
    {k : Ledger M × World → Res (Ledger M × World)} (h : EqualOutcome w w' r r')
    (hk : ∀ st, st.2.file = w.file → st.2.canAppend = w.canAppend →
      EqualOutcome w w' (k st) (k (inWorld w' st))) :
    EqualOutcome w w' (r >>= k) (r' >>= k) := by
  obtain ⟨rfl, h2⟩ := h
  cases r with
  | error f => exact .error f
  | ok st => exact hk st (h2 st rfl).1 (h2 st rfl).2

theorem parseChunk_world (env : Env) (w w' : World)
    (inc : Ledger M × World → Str → Res (Ledger M × World))
    (hinc : ∀ st v, st.2.file = w.file → st.2.canAppend = w.canAppend →
      EqualOutcome w w' (inc st v) (inc (inWorld w' st) v))
    (st : Ledger M × World) (hf : st.2.file = w.file) (ha : st.2.canAppend = w.canAppend) (c : Str) :
    EqualOutcome w w' (Ledger.parseChunk env inc st c) (Ledger.parseChunk env inc (inWorld w' st) c) := by
  have lift : ∀ r : Res (Ledger M), EqualOutcome w w' (do let l ← r; pure (l, st.2))
      (do let l ← r; pure (l, (inWorld w' st).2)) := by
    intro r
    cases r with
    | error f => exact .error f
    | ok l => exact EqualOutcome.ok (st := (l, st.2)) hf ha
  unfold Ledger.parseChunk
  split
  · exact .ok hf ha
  · split
    · exact .ok hf ha
    · rename_i kw rest _
      split
      · exact lift _
      · split
        · cases rest with
          | nil => exact .error _
          | cons v _ => exact EqualOutcome.ok (st := ({ st.1 with currency := v }, st.2)) hf ha
        · split
          · cases rest with
            | nil => exact .error _
            | cons v _ => exact EqualOutcome.ok (st := ({ st.1 with dateFormat := v }, st.2)) hf ha
          · split
            · cases rest with
              | nil => exact .error _
              | cons v _ => exact hinc st v hf ha
            · exact lift _

theorem addEff_world (env : Env) (w w' : World)
    (inc : Ledger M × World → Str → Res (Ledger M × World))
    (hinc : ∀ st v, st.2.file = w.file → st.2.canAppend = w.canAppend →
      EqualOutcome w w' (inc st v) (inc (inWorld w' st) v))
    (ls : List Str) (st : Ledger M × World) (hf : st.2.file = w.file)
    (ha : st.2.canAppend = w.canAppend) (c : Str) :
    EqualOutcome w w' (addEff env inc ls st c) (addEff env inc ls (inWorld w' st) c) := by
  induction ls generalizing st c with
  | nil => exact parseChunk_world env w w' inc hinc st hf ha c
  | cons l ls ih =>
    simp only [addEff]
    split
    · exact ih st hf ha _
    · exact (parseChunk_world env w w' inc hinc st hf ha c).bind fun st hf ha => ih st hf ha _

theorem addFromFile_world (env : Env) (w w' : World) (hw : SameEff w w') (fuel : Nat)
    (st : Ledger M × World) (hf : st.2.file = w.file) (ha : st.2.canAppend = w.canAppend) (p : Str) :
    EqualOutcome w w' (Ledger.addFromFile env fuel st p) (Ledger.addFromFile env fuel (inWorld w' st) p) := by
  induction fuel generalizing st p with
  | zero => exact .error _
  | succ f ih =>
    simp only [Ledger.addFromFile, World.read, inWorld]
    cases h1 : endsInName p with
    | false => exact .error _
    | true =>
      simp only [if_true, hf]
      have hp := hw.file (resolve st.2.cwd p)
      cases h2 : w.file (resolve st.2.cwd p) with
      | none =>
        rw [h2] at hp
        cases h3 : w'.file (resolve st.2.cwd p) with
        | none => exact .error _
        | some s' => rw [h3] at hp; cases hp
      | some s =>
        rw [h2] at hp
        cases h3 : w'.file (resolve st.2.cwd p) with
        | none => rw [h3] at hp; cases hp
        | some s' =>
          rw [h3] at hp
          simp only [Option.map_some, Option.some.injEq] at hp
          simp only [addLinesFrom_eff, hp]
          exact addEff_world env w w' _ (fun st v h h' => ih st h h' v) _
            (st.1, st.2.cdParent p) hf ha []

theorem fromFile_world (env : Env) (w w' : World) (hw : SameEff w w') (fuel : Nat) (path : Str) :
    (Ledger.fromFile env fuel w' path : Res (Ledger M × World)) =
      (Ledger.fromFile env fuel w path).map (inWorld w') := by
  have := (addFromFile_world (M := M) env w w' hw fuel (Ledger.new path, w) rfl rfl path).1
  unfold Ledger.fromFile
  rw [← this]
  congr 2
  simp only [← hw.cwd]

/-! ### Commands -/

theorem SameEff.cd {w w' : World} (h : SameEff w w') (c : APath) :
    SameEff { w with cwd := c } { w' with cwd := c } := ⟨rfl, h.canAppend, h.file⟩

theorem appendEntry_world (env : Env) (w w' : World) (h : SameEff w w') (l : Ledger M) (e : Entry M) :
    SameEff (l.appendEntry env w e).1 (l.appendEntry env w' e).1 ∧
    (l.appendEntry env w' e).2 = (l.appendEntry env w e).2 := by
  have hp := h.file (resolve w.cwd l.filePath)
  have hs : (w'.file (resolve w.cwd l.filePath)).isSome = (w.file (resolve w.cwd l.filePath)).isSome := by
    have := congrArg Option.isSome hp
    simpa using this
  unfold Ledger.appendEntry
  simp only [h.cwd, h.canAppend, hs]
  split
  · exact ⟨h, rfl⟩
  · split
    · exact ⟨h, rfl⟩
    · rename_i text _
      simp only [World.append, h.cwd, h.canAppend]
      cases hc : (endsInName l.filePath && w.canAppend (resolve w.cwd l.filePath)) with
      | false => exact ⟨h, rfl⟩
      | true =>
        simp only [if_true]
        cases h2 : w.file (resolve w.cwd l.filePath) with
        | none =>
          rw [h2] at hp
          cases h3 : w'.file (resolve w.cwd l.filePath) with
          | none => exact ⟨h, rfl⟩
          | some s' => rw [h3] at hp; cases hp
        | some s =>
          rw [h2] at hp
          cases h3 : w'.file (resolve w.cwd l.filePath) with
          | none => rw [h3] at hp; cases hp
          | some s' =>
            rw [h3] at hp
            simp only [Option.map_some, Option.some.injEq] at hp
            refine ⟨⟨h.cwd, h.canAppend, fun p => ?_⟩, rfl⟩
            simp only [World.write]
            split
            · simp only [Option.map_some, eff_lines_append, hp]
            · exact h.file p

theorem fillEnvelopes_worlds (env : Env) (w w' : World) (h : SameEff w w') (l : Ledger M) :
    SameEff (l.fillEnvelopes env w).1 (l.fillEnvelopes env w').1 ∧
    (l.fillEnvelopes env w').2 = (l.fillEnvelopes env w).2 := by
  unfold Ledger.fillEnvelopes
  split
  · exact ⟨h, rfl⟩
  · simp only
    split
    · exact ⟨h, rfl⟩
    · exact appendEntry_world env w w' h l _

theorem runSub_worlds (env : Env) (o : Outside) (f : Flags) (hf : f.sub ≠ .import_) (w w' : World)
    (h : SameEff w w') (l : Ledger M) :
    SameEff (runSub env o f w l).1 (runSub env o f w' l).1 ∧
    (runSub env o f w' l).2 = (runSub env o f w l).2 := by
  rw [runSub_world _ _ _ _ _ hf, runSub_world _ _ _ _ _ hf]
  refine ⟨h, ?_⟩
  unfold runSub
  split
  · rfl
  · rfl
  · split <;> rfl
  · rename_i hs; exact absurd hs hf
  · rfl
  · rfl

theorem mainProgram_worlds (env : Env) (o : Outside) (args : List Str)
    (ha : ∀ f, Flags.parse args = .ok (some f) → f.sub ≠ .import_) (w w' : World) (h : SameEff w w') :
    SameEff (mainProgram M env o args w).1 (mainProgram M env o args w').1 ∧
    (mainProgram M env o args w').2 = (mainProgram M env o args w).2 := by
  unfold mainProgram
  split
  · exact ⟨h, rfl⟩
  · exact ⟨h, rfl⟩
  · rename_i f hf
    have hi := ha f hf
    unfold execute
    split
    · exact ⟨h, rfl⟩
    · rename_i path _
      rw [fromFile_world env w w' h]
      cases hl : (Ledger.fromFile env o.fuel w path : Res (Ledger M × World)) with
      | error x => exact ⟨h, rfl⟩
      | ok st =>
        obtain ⟨l, w1⟩ := st
        have hs := (addFromFile_world (M := M) env w w' h o.fuel (Ledger.new path, w) rfl rfl path).2
          (l, w1) hl
        have h1 : SameEff w1 { w' with cwd := w1.cwd } :=
          ⟨rfl, by rw [hs.2]; exact h.canAppend, fun p => by rw [hs.1]; exact h.file p⟩
        simp only [Except.map, inWorld]
        split
        · exact runSub_worlds env o f hi _ _ h1 l
        · obtain ⟨h2, h3⟩ := fillEnvelopes_worlds env w1 _ h1 l
          cases h4 : l.fillEnvelopes env w1 with
          | mk w2 r =>
            cases h5 : l.fillEnvelopes env { w' with cwd := w1.cwd } with
            | mk w3 r' =>
              rw [h4, h5] at h2 h3
              simp only at h2 h3
              subst h3
              cases r' with
              | error x => exact ⟨h2, rfl⟩
              | ok l => exact runSub_worlds env o f hi _ _ h2 l

/-! ### C102 -/

/-- C102: a journal, and every file it includes, may have its lines end in another way: loading gives
the same ledger or the same failure. -/
theorem C102_line_endings (M : Type) [Mag M] (env : Env) (fuel : Nat) (w w' : World) (path : Str)
    (h : SameButEndings w w') :
    (Ledger.fromFile env fuel w' path : Res (Ledger M × World)).map Prod.fst =
      (Ledger.fromFile env fuel w path).map Prod.fst := by
  rw [fromFile_world env w w' h.same_eff]
  cases (Ledger.fromFile env fuel w path : Res (Ledger M × World)) <;> rfl

/-- C102 for whole sessions: in every sequence of commands that import nothing, on any days and from any
directories, every command prints the same, or fails in the same way, although envelopes may be filled
and the journals extended in between. -/
theorem C102_sessions (M : Type) [Mag M] (env : Env) (rs : List Run) (w w' : World)
    (h : SameButEndings w w')
    (hr : ∀ r ∈ rs, ∀ f, Flags.parse r.args = .ok (some f) → f.sub ≠ .import_) :
    printed M env rs w' = printed M env rs w := by
  have key : ∀ w w' : World, SameEff w w' → printed M env rs w' = printed M env rs w := by
    induction rs with
    | nil => intro _ _ _; rfl
    | cons r rs ih =>
      intro w w' h
      obtain ⟨h1, h2⟩ := mainProgram_worlds (M := M) (r.env env) r.out r.args (hr r (by simp)) _ _
        (h.cd r.cwd)
      simp only [printed]
      rw [h2, ih (fun r h => hr r (by simp [h])) (r.exec M env w) (r.exec M env w') h1]
  exact key w w' h.same_eff

/-! ### Rules -/

theorem addLines_snoc (inc : Rules → Str → Res Rules) (ls : List Str) (r : Rules) (b : Block) :
    addLines inc (ls ++ [[]]) r b = addLines inc ls r b := by
  induction ls generalizing r b with
  | nil => cases b <;> rfl
  | cons l ls ih =>
    simp only [List.cons_append, addLines, bind, Except.bind]
    split
    · rfl
    · exact ih _ _

theorem addLines_endings (inc : Rules → Str → Res Rules) {s t : Str} (h : Endings s t) (r : Rules) (b : Block) :
    addLines inc (lines t) r b = addLines inc (lines s) r b := by
  rcases h.same_lines with h | h | h
  · rw [h]
  · rw [h, addLines_snoc]
  · rw [h, addLines_snoc]

theorem SameButEndings.read {w w' : World} (h : SameButEndings w w') (p : Str) :
    (w.read p = none ∧ w'.read p = none) ∨ ∃ s t, w.read p = some s ∧ w'.read p = some t ∧ Endings s t := by
  unfold World.read
  rw [h.cwd]
  split
  · have := h.file (resolve w.cwd p)
    split at this
    · rename_i h1 h2; exact .inl ⟨h1, h2⟩
    · rename_i s t h1 h2; exact .inr ⟨s, t, h1, h2, this⟩
    · exact this.elim
  · exact .inl ⟨rfl, rfl⟩

/-- C102 for rules: a file of import rules, and every file it includes, may have its lines end in another
way. -/
theorem C102_rules (w w' : World) (h : SameButEndings w w') (fuel : Nat) (r : Rules) (path : Str) :
    addRulesFile w' fuel r path = addRulesFile w fuel r path := by
  induction fuel generalizing r path with
  | zero => rfl
  | succ f ih =>
    simp only [addRulesFile]
    have hi : addRulesFile w' f = addRulesFile w f := by funext r p; exact ih r p
    rw [hi]
    rcases h.read path with ⟨h1, h2⟩ | ⟨s, t, h1, h2, he⟩
    · rw [h1, h2]
    · rw [h1, h2]; exact addLines_endings _ he r .root

/-- C102 for imports: with the same table, the rules and records of an import are the same. -/
theorem C102_import (env : Env) (w w' : World) (h : SameButEndings w w') (fuel : Nat) (csv : Str)
    (hcsv : w'.read csv = w.read csv) (rules : Option Str) :
    importerFromFile env w' fuel csv rules = importerFromFile env w fuel csv rules := by
  unfold importerFromFile
  rw [hcsv]
  have hi : addRulesFile w' fuel = addRulesFile w fuel := by funext r p; exact C102_rules w w' h fuel r p
  split
  · rfl
  · rcases h.read (rules.getD (csv ++ s%".rules")) with ⟨h1, h2⟩ | ⟨s, t, h1, h2, he⟩
    · rw [h1, h2]
    · rw [h1, h2]
      simp only [importerFromStrs, hi, addLines_endings _ he]

/-! ### A concrete case -/

/-- Two disks with one journal each. -/
theorem disk_one (j j' : String) (h : Endings j.toList j'.toList) :
    SameButEndings (disk [("j", j)]) (disk [("j", j')]) := by
  refine ⟨rfl, rfl, fun p => ?_⟩
  match p with
  | [] => trivial
  | [_] => trivial
  | _ :: _ :: _ :: _ => trivial
  | [d, n] =>
    simp only [disk]
    by_cases hd : d = s%"h"
    · simp only [if_pos hd, List.find?_cons, List.find?_nil]
      cases hj : ("j".toList == n) with
      | true => exact h
      | false => trivial
    · simp only [if_neg hd]

/-- A journal written on Windows, without an ending after its last line. -/
example : SameButEndings (disk [("j", "account a\n2024/01/02 * x\n a 3\n a -3\n")])
    (disk [("j", "account a\r\n2024/01/02 * x\n a 3\r\n a -3")]) :=
  disk_one _ _ (by
    show Endings (s%"account a" ++ '\n' :: (s%"2024/01/02 * x" ++ '\n' :: (s%" a 3" ++ '\n' :: (s%" a -3" ++ ['\n']))))
      (s%"account a" ++ '\r' :: '\n' :: (s%"2024/01/02 * x" ++ '\n' :: (s%" a 3" ++ '\r' :: '\n' :: (s%" a -3" ++ []))))
    simp only [List.cons_append, List.nil_append]
    repeat (first | exact .nil | exact .dropUnix | refine .char (by decide) (by decide) ?_
                  | refine .toDos ?_ | refine .unix ?_))

/-- That journal loads, and the balance is printed. -/
example : (mainProgram Rat (stdEnv june15) ⟨none, none, false, 5⟩ [s%"b", s%"-f", s%"j"]
    (disk [("j", "account a\r\n2024/01/02 * x\n a 3\r\n a -3")])).2 =
      .ok [s%"a                                       0"] := by
  decide +kernel

/-- Beside C102: the mark that some editors write at the beginning of a file is not ignored. -/
theorem C102_byte_order_mark :
    (∃ l, (Ledger.fromFile (stdEnv june15) 5 (disk [("j", "account a\r\n")]) s%"j" :
      Res (Ledger Rat × World)) = .ok l) ∧
    (Ledger.fromFile (stdEnv june15) 5 (disk [("j", "\uFEFFaccount a\r\n")]) s%"j" :
      Res (Ledger Rat × World)).toOption.isNone = true := by
  decide +kernel

end Silverfox
