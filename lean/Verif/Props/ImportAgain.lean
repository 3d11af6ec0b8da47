import Verif.Props.Accept
import Verif.Props.Import

/-
C105: what importing the same table again does.
-/

namespace Silverfox

set_option linter.unusedSectionVars false
variable {M : Type} [Mag M]

/-! ### The same records, once more -/

theorem appendEntry_again (env : Env) (hord : FairOrder env.ord) (w w1 w' : World) (l l1 l' : Ledger M) (e : Entry M)
    (h : l.appendEntry env w e = (w1, .ok l1)) (hs : LedDecl l l') (hp : l'.filePath = l.filePath)
    (hc : w'.cwd = w.cwd) (ha : w'.canAppend = w.canAppend)
    (hf : (w'.file (resolve w.cwd l.filePath)).isSome = (w.file (resolve w.cwd l.filePath)).isSome) :
    ∃ w1' l1', l'.appendEntry env w' e = (w1', .ok l1') ∧ LedDecl l1 l1' ∧ l1'.filePath = l1.filePath ∧ w1'.cwd = w1.cwd ∧
      w1'.canAppend = w1.canAppend ∧
      (w1'.file (resolve w1.cwd l1.filePath)).isSome = (w1.file (resolve w1.cwd l1.filePath)).isSome := by
  rcases appendEntry_cases env w l e w1 _ h with ⟨_, hx, _⟩ | ⟨t, ht, ⟨a1, a2, a3, a4⟩, hadd⟩
  · cases hx
  obtain ⟨hd1, l1', hadd'⟩ := addEntry_accepts env hord e l l' l1 hs hadd.symm
  have hd2 := addEntry_declared env hord e l' l1' hadd'
  obtain ⟨b1, b2, b3, b4, _⟩ := addEntry_frame env l l1 e hadd.symm
  obtain ⟨c1, c2, c3, c4, _⟩ := addEntry_frame env l' l1' e hadd'
  cases hr : l'.appendEntry env w' e with
  | mk w1' r =>
    rcases appendEntry_cases env w' l' e w1' r hr with ⟨f, rfl, rfl⟩ | ⟨t', ht', ⟨d1, d2, d3, d4⟩, rfl⟩
    · exfalso
      unfold Ledger.appendEntry at h hr
      rw [hp, hc, ha, hf, hs.format] at hr
      split at h
      · cases h
      · rename_i hcond
        rw [if_neg hcond, ht] at hr
        simp only [Bool.not_eq_true', Bool.not_eq_false, Bool.and_eq_true] at hcond
        have hsome : ∃ s, w1'.file (resolve w.cwd l.filePath) = some s := by
          rw [← Option.isSome_iff_exists, hf]; simpa using hcond.2
        obtain ⟨s, hs'⟩ := hsome
        simp only [World.append, hc, ha, hcond.1.1, hcond.1.2, Bool.and_self, if_true, hs', hadd'] at hr
        cases (Prod.mk.inj hr).2
    · refine ⟨w1', l1', by rw [hadd'], hd1.symm.trans (hs.trans hd2), by rw [c1, b1, hp], by rw [d1, a1, hc],
        by rw [d2, a2, ha], ?_⟩
      rw [a1, b1, a3]
      rw [hc, hp] at d3
      rw [d3]
      simp [hf]

theorem importLoop_again (env : Env) (hord : FairOrder env.ord) (rules : Rules) (known : List Str) :
    ∀ (recs : List (List Str)) (w w1 w' : World) (l l1 l' : Ledger M),
    Ledger.importLoop env rules known recs w l = (w1, .ok l1) → LedDecl l l' → l'.filePath = l.filePath →
    w'.cwd = w.cwd → w'.canAppend = w.canAppend →
    (w'.file (resolve w.cwd l.filePath)).isSome = (w.file (resolve w.cwd l.filePath)).isSome →
    ∃ w1' l1', Ledger.importLoop env rules known recs w' l' = (w1', .ok l1')
  | [], w, w1, w', l, l1, l', _, _, _, _, _, _ => ⟨w', l', rfl⟩
  | rec :: recs, w, w1, w', l, l1, l', h, hs, hp, hc, ha, hf => by
    simp only [Ledger.importLoop] at h ⊢
    split at h
    · cases h
    · rename_i e he
      split at h
      · cases h
      · rename_i w2 l2 hap
        obtain ⟨w2', l2', g1, g2, g3, g4, g5, g6⟩ := appendEntry_again env hord w w2 w' l l2 l' e hap hs hp hc ha hf
        rw [g1]
        exact importLoop_again env hord rules known recs w2 w1 w2' l2 l1 l2' h g2 g3 g4 g5 g6

theorem importLoop_declared (env : Env) (hord : FairOrder env.ord) (rules : Rules) (known : List Str) :
    ∀ (recs : List (List Str)) (w w1 : World) (l l1 : Ledger M),
    Ledger.importLoop env rules known recs w l = (w1, .ok l1) → LedDecl l l1 ∧ l1.filePath = l.filePath
  | [], w, w1, l, l1, h => by
    simp only [Ledger.importLoop, Prod.mk.injEq, Except.ok.injEq] at h
    obtain ⟨rfl, rfl⟩ := h
    exact ⟨.refl _, rfl⟩
  | rec :: recs, w, w1, l, l1, h => by
    simp only [Ledger.importLoop] at h
    split at h
    · cases h
    · rename_i e he
      split at h
      · cases h
      · rename_i w2 l2 hap
        rcases appendEntry_cases env w l e w2 _ hap with ⟨_, hx, _⟩ | ⟨t, ht, _, hadd⟩
        · cases hx
        obtain ⟨b1, _⟩ := addEntry_frame env l l2 e hadd.symm
        obtain ⟨k1, k2⟩ := importLoop_declared env hord rules known recs w2 w1 l2 l1 h
        exact ⟨(addEntry_declared env hord e l l2 hadd.symm).trans k1, k2.trans b1⟩

theorem madeOf_unique (env : Env) (rules : Rules) (known : List Str) (fmt : Str) (recs : List (List Str))
    (ets ets' : List (Entry M × Str)) (h : List.Forall₂ (MadeOf env rules known fmt) recs ets)
    (h' : List.Forall₂ (MadeOf env rules known fmt) recs ets') : ets = ets' := by
  induction h generalizing ets' with
  | nil => cases h'; rfl
  | @cons r et recs ets hx _ ih =>
    cases h' with
    | cons hy h' =>
      rw [ih _ h']
      congr 1
      obtain ⟨e, t⟩ := et
      rename_i et' _
      obtain ⟨e', t'⟩ := et'
      obtain ⟨h1, h2⟩ := hx
      obtain ⟨h3, h4⟩ := hy
      simp only at h1 h2 h3 h4
      have : e = e' := Except.ok.inj (h1.symm.trans h3)
      subst this
      have : t = t' := Except.ok.inj (h2.symm.trans h4)
      rw [this]

/-- The general case: importing with a ledger of the same declarations. -/
theorem importCsv_again (env : Env) (hord : FairOrder env.ord) (fuel : Nat) (w w' : World) (l l' l2 : Ledger M) (csv : Str)
    (rules : Option Str) (h : l.importCsv env fuel w csv rules = (w', .ok l'))
    (hread : importerFromFile env w' fuel csv rules = importerFromFile env w fuel csv rules)
    (hd : LedDecl l l2) (hp : l2.filePath = l.filePath) :
    ∃ (es : List (Entry M)) (added : Str) (w'' : World) (l'' : Ledger M),
      l2.importCsv env fuel w' csv rules = (w'', .ok l'') ∧
      l'.entries.Perm (l.entries ++ es) ∧ l''.entries.Perm (l2.entries ++ es) ∧
      w'.file (resolve w.cwd l.filePath) = (w.file (resolve w.cwd l.filePath)).map (· ++ added) ∧
      w''.file (resolve w.cwd l.filePath) = (w'.file (resolve w.cwd l.filePath)).map (· ++ added) ∧
      (∀ p, p ≠ resolve w.cwd l.filePath → w'.file p = w.file p ∧ w''.file p = w.file p) ∧
      w'.cwd = w.cwd ∧ w'.canAppend = w.canAppend := by
  unfold Ledger.importCsv at h ⊢
  rw [hread]
  split at h
  · cases h
  · rename_i rs recs hi
    rcases importLoop_cases env rs l.accountNames recs w l w' _ h with
      ⟨ets, l1, k1, k2, ⟨a1, a2, a3, a4⟩, k4⟩ | ⟨_, _, _, _, _, k1, _⟩
    swap
    · cases k1
    cases k1
    have hf : (w'.file (resolve w.cwd l.filePath)).isSome = (w.file (resolve w.cwd l.filePath)).isSome := by
      rw [a3]; simp
    obtain ⟨w'', l'', g⟩ := importLoop_again env hord rs l.accountNames recs w w' w' l l' l2 h hd hp a1 a2 hf
    have g' := g
    simp only [hd.names]
    rcases importLoop_cases env rs l.accountNames recs w' l2 w'' _ g with
      ⟨ets', l1', m1, m2, ⟨b1, b2, b3, b4⟩, m4⟩ | ⟨_, _, _, _, _, m1, _⟩
    swap
    · cases m1
    cases m1
    rw [hd.format] at m2
    obtain rfl := madeOf_unique _ _ _ _ _ _ _ k2 m2
    rw [a1, hp] at b3 b4
    exact ⟨ets.map Prod.fst, (ets.map Prod.snd).flatMap ('\n' :: ·), w'', l'', g', k4, m4, a3, b3,
      fun p hp' => ⟨a4 p hp', (b4 p hp').trans (a4 p hp')⟩, a1, a2⟩

/-! ### C105 -/

/-- **C105.** Importing the same table again succeeds if it did the first time, and appends the same text again; the
entries are then there twice. (The table and its rules are read again: `hread` says that they are the same, for
example because the journal is neither of them.) -/
theorem C105_importing_again (env : Env) (hord : FairOrder env.ord) (fuel : Nat) (w w' : World) (l l' : Ledger M) (csv : Str)
    (rules : Option Str) (h : l.importCsv env fuel w csv rules = (w', .ok l'))
    (hread : importerFromFile env w' fuel csv rules = importerFromFile env w fuel csv rules) :
    ∃ (es : List (Entry M)) (added : Str) (w'' : World) (l'' : Ledger M),
      l'.importCsv env fuel w' csv rules = (w'', .ok l'') ∧
      l'.entries.Perm (l.entries ++ es) ∧ l''.entries.Perm (l.entries ++ es ++ es) ∧
      w'.file (resolve w.cwd l.filePath) = (w.file (resolve w.cwd l.filePath)).map (· ++ added) ∧
      w''.file (resolve w.cwd l.filePath) = (w.file (resolve w.cwd l.filePath)).map (· ++ added ++ added) ∧
      ∀ p, p ≠ resolve w.cwd l.filePath → w'.file p = w.file p ∧ w''.file p = w.file p := by
  obtain ⟨hd, hp⟩ : LedDecl l l' ∧ l'.filePath = l.filePath := by
    unfold Ledger.importCsv at h
    split at h
    · cases h
    · exact importLoop_declared env hord _ _ _ _ _ _ _ h
  obtain ⟨es, added, w'', l'', g1, g2, g3, g4, g5, g6, _⟩ := importCsv_again env hord fuel w w' l l' l' csv rules h hread hd hp
  refine ⟨es, added, w'', l'', g1, g2, g3.trans (g2.append_right es), g4, ?_, g6⟩
  rw [g5, g4]
  cases w.file (resolve w.cwd l.filePath) <;> simp

/-- **C105, in part.** The same for two runs of the program: if `import` with `--no-move` succeeds, and the entries
made can be read back (`Keeps`, C70), a second run succeeds too and appends the same text once more. Missing: a fill
between the two runs, and entries that cannot be read back, after which the second run fails (C70). -/
theorem C105_running_again_partial (env : Env) (hord : FairOrder env.ord) (o : Outside) (args : List Str) (f : Flags)
    (path csv : Str) (w w' : World) (l : Ledger M) (w1 : World) (out : List Str)
    (hflags : Flags.parse args = .ok (some f)) (hsub : f.sub = .import_) (hmove : f.noMove = true)
    (hfile : f.file.or o.file = some path) (hcsv : f.csv = some csv)
    (hload : Ledger.fromFile env o.fuel w path = .ok (l, w1)) (hsame : resolve w1.cwd path = resolve w.cwd path)
    (hkeeps : ∀ rules recs, importerFromFile env w1 o.fuel csv f.rules = .ok (rules, recs) →
      ∀ r ∈ recs, ∀ e : Entry M, rules.entry env r l.accountNames = .ok e → Keeps env l.accountNames l.dateFormat e)
    (hrun : mainProgram M env o args w = (w', .ok out))
    (hread : importerFromFile env w' o.fuel csv f.rules = importerFromFile env w1 o.fuel csv f.rules) :
    ∃ added w'', mainProgram M env o args { w' with cwd := w.cwd } = (w'', .ok out) ∧
      w'.file (resolve w.cwd path) = (w.file (resolve w.cwd path)).map (· ++ added) ∧
      w''.file (resolve w.cwd path) = (w.file (resolve w.cwd path)).map (· ++ added ++ added) ∧
      ∀ p, p ≠ resolve w.cwd path → w'.file p = w.file p ∧ w''.file p = w.file p := by
  have prog : ∀ v : World, mainProgram M env o args v = (match (Ledger.fromFile env o.fuel v path : Res (Ledger M × World)) with
      | .error x => (v, .error x)
      | .ok (l, v) => match l.importCsv env o.fuel v csv f.rules with
        | (v, .ok _) => (v, .ok [])
        | (v, .error x) => (v, .error x)) := by
    intro v
    unfold mainProgram
    rw [hflags]
    simp only [execute, hfile, hmove, if_true, runSub, hsub, hcsv]
    rcases (Ledger.fromFile env o.fuel v path : Res (Ledger M × World)) with x | ⟨l, v'⟩
    · rfl
    · simp only
      rcases l.importCsv env o.fuel v' csv f.rules with ⟨v'', x | y⟩ <;> rfl
  obtain ⟨⟨is, hsteps⟩, hfw, hcan⟩ := fromFile_sound _ _ _ _ _ _ hload
  have hpath : l.filePath = path := hsteps.filePath.1
  rw [prog, hload] at hrun
  simp only at hrun
  cases him : l.importCsv env o.fuel w1 csv f.rules with
  | mk v r =>
    rw [him] at hrun
    cases r with
    | error x => cases hrun
    | ok l' =>
      cases hrun
      have hback := C70_loads_partial env o.fuel o.fuel w w1 w' path l l' csv f.rules hload hsame hkeeps him
      obtain ⟨hd, hp⟩ : LedDecl l l' ∧ l'.filePath = l.filePath := by
        unfold Ledger.importCsv at him
        split at him
        · cases him
        · exact importLoop_declared env hord _ _ _ _ _ _ _ him
      obtain ⟨es, added, w'', l'', g1, g2, g3, g4, g5, g6, _⟩ := importCsv_again env hord o.fuel w1 w' l l'
        { l' with entries := l'.entries.map fun e => { e with comment := none } } csv f.rules him hread
        ⟨hd.format, hd.currency, hd.decimal, hd.accounts⟩ hp
      rw [hpath, hsame, hfw] at g4
      rw [hpath, hsame] at g5 g6
      refine ⟨added, w'', ?_, g4, ?_, fun p hp => ?_⟩
      · rw [prog, hback]
        simp only [g1]
      · rw [g5, g4]
        cases w.file (resolve w.cwd path) <;> simp
      · rw [← hfw]; exact g6 p hp

/-! ### An example -/

deriving instance DecidableEq for Rules

/-- A journal, a table of one record, and rules. -/
def exAgain : World := importDisk "account a\naccount b\n" "Date,What,Amount\n2024/06/01,Tea,3\n"
  "fields date, description, amount\naccount1 a\namount1 %amount%\naccount2 b\namount2 -%amount%\n"

/-- The journal that is loaded from it; the import succeeds, and the table and the rules are the same afterwards. -/
example : ∃ r : Ledger F64 × World, Ledger.fromFile (stdEnv june15) 9 exAgain s%"j" = .ok r ∧
    ((r.1.importCsv (stdEnv june15) 9 r.2 s%"b.csv" none).2.isOk = true ∧
      importerFromFile (stdEnv june15) (r.1.importCsv (stdEnv june15) 9 r.2 s%"b.csv" none).1 9 s%"b.csv" none =
        importerFromFile (stdEnv june15) r.2 9 s%"b.csv" none) := by
  decide +kernel

def exAgainArgs : List Str := [s%"import", s%"-n", s%"--csv", s%"/h/b.csv", s%"-f", s%"/h/j"]

def exAgainOnce : World := (mainProgram F64 (stdEnv june15) ⟨none, none, false, 9⟩ exAgainArgs exAgain).1
def exAgainTwice : World := (mainProgram F64 (stdEnv june15) ⟨none, none, false, 9⟩ exAgainArgs { exAgainOnce with cwd := exAgain.cwd }).1

/-- **C105, refuted.** Nothing tells the program that a table has been imported already: after two runs of the same
command the one record of the table is in the journal twice. -/
theorem C105_imported_twice :
    exAgainOnce.read s%"/h/j" = some s%"account a\naccount b\n\n2024/06/01 ~ Tea\n    b                                                  -3\n    a                                                   3\n" ∧
    exAgainTwice.read s%"/h/j" = some s%"account a\naccount b\n\n2024/06/01 ~ Tea\n    b                                                  -3\n    a                                                   3\n\n2024/06/01 ~ Tea\n    b                                                  -3\n    a                                                   3\n" := by
  decide +kernel

end Silverfox
