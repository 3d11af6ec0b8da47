import Mathlib.Data.List.Forall2
import Verif.Props.Records
import Verif.Props.Reload

/-
Importing a CSV file: what is written (C72), what a failure leaves (C71), whether the journal still loads
(C70).
-/

namespace Silverfox

set_option linter.unusedSectionVars false

variable {M : Type} [Mag M]

/-! ### What importing writes -/


/-- `e` is the entry made of the record, and `t` its text. -/
def MadeOf (env : Env) (rules : Rules) (known : List Str) (fmt : Str) (record : List Str)
    (et : Entry M × Str) : Prop :=
  rules.entry env record known = .ok et.1 ∧ et.1.asParsable env fmt = .ok et.2

/-- The journal file of `l` in `w'` is that of `w` with the texts appended, each after a line break; all
other files are the same. -/
def Appended (l : Ledger M) (w w' : World) (texts : List Str) : Prop :=
  w'.cwd = w.cwd ∧ w'.canAppend = w.canAppend ∧
  (w'.file (resolve w.cwd l.filePath) =
    (w.file (resolve w.cwd l.filePath)).map fun old => old ++ texts.flatMap ('\n' :: ·)) ∧
  ∀ a, a ≠ resolve w.cwd l.filePath → w'.file a = w.file a

theorem appended_nil (l : Ledger M) (w : World) : Appended l w w [] := by
  refine ⟨rfl, rfl, ?_, fun _ _ => rfl⟩
  cases w.file (resolve w.cwd l.filePath) <;> simp

theorem Appended.trans {l l1 : Ledger M} {w w1 w2 : World} {a b : List Str} (hp : l1.filePath = l.filePath)
    (h1 : Appended l w w1 a) (h2 : Appended l1 w1 w2 b) : Appended l w w2 (a ++ b) := by
  obtain ⟨p1, p2, p3, p4⟩ := h1
  obtain ⟨q1, q2, q3, q4⟩ := h2
  rw [p1, hp] at q3 q4
  refine ⟨q1.trans p1, q2.trans p2, ?_, fun x hx => (q4 x hx).trans (p4 x hx)⟩
  rw [q3, p3]
  cases w.file (resolve w.cwd l.filePath) <;> simp

/-- One entry is appended, or nothing at all. The third case: the file is extended, but the entry could not
be processed. -/
theorem appendEntry_cases (env : Env) (w : World) (l : Ledger M) (e : Entry M) (w' : World)
    (r : Res (Ledger M)) (h : l.appendEntry env w e = (w', r)) :
    (∃ f, r = .error f ∧ w' = w) ∨
    ∃ t, e.asParsable env l.dateFormat = .ok t ∧ Appended l w w' [t] ∧ r = l.addEntry env e := by
  unfold Ledger.appendEntry at h
  split at h
  · cases h; exact .inl ⟨_, rfl, rfl⟩
  · split at h
    · cases h; exact .inl ⟨_, rfl, rfl⟩
    · rename_i t ht
      unfold World.append at h
      simp only at h
      split at h
      · cases h; exact .inl ⟨_, rfl, rfl⟩
      · rename_i w1 hw1
        split at hw1
        · split at hw1
          · rename_i old hold
            cases hw1
            cases h
            refine .inr ⟨t, ht, ⟨rfl, rfl, ?_, ?_⟩, rfl⟩
            · simp [World.write, hold]
            · intro a ha; simp [World.write, ha]
          · cases hw1
        · cases hw1

theorem addEntry_frame (env : Env) (l l' : Ledger M) (e : Entry M) (h : l.addEntry env e = .ok l') :
    l'.filePath = l.filePath ∧ l'.dateFormat = l.dateFormat ∧ l'.decimal = l.decimal ∧
    l'.accountNames = l.accountNames ∧ l'.entries.Perm (l.entries ++ [e]) := by
  obtain ⟨accs, h1, rfl, _⟩ := addEntry_ok _ _ _ _ h
  exact ⟨rfl, rfl, rfl, (processAll_ok _ _ _ _ h1).1, stableSort_perm _ _⟩

theorem importLoop_cases (env : Env) (rules : Rules) (known : List Str) : ∀ (recs : List (List Str))
    (w : World) (l : Ledger M) (w' : World) (r : Res (Ledger M)),
    Ledger.importLoop env rules known recs w l = (w', r) →
    (∃ ets l', r = .ok l' ∧ List.Forall₂ (MadeOf env rules known l.dateFormat) recs ets ∧
      Appended l w w' (ets.map Prod.snd) ∧ l'.entries.Perm (l.entries ++ ets.map Prod.fst)) ∨
    (∃ f before bad after ets, r = .error f ∧ recs = before ++ bad :: after ∧
      List.Forall₂ (MadeOf (M := M) env rules known l.dateFormat) before ets ∧
      ((Appended l w w' (ets.map Prod.snd)) ∨
       ∃ et : Entry M × Str, MadeOf env rules known l.dateFormat bad et ∧ Appended l w w' (ets.map Prod.snd ++ [et.2])))
  | [], w, l, w', r, h => by
    simp only [Ledger.importLoop, Prod.mk.injEq] at h
    obtain ⟨rfl, rfl⟩ := h
    exact .inl ⟨[], l, rfl, .nil, appended_nil l w, by simp⟩
  | rec :: recs, w, l, w', r, h => by
    simp only [Ledger.importLoop] at h
    split at h
    · rename_i f hf
      simp only [Prod.mk.injEq] at h
      obtain ⟨rfl, rfl⟩ := h
      exact .inr ⟨f, [], rec, recs, [], rfl, rfl, .nil, .inl (appended_nil l w)⟩
    · rename_i e he
      split at h
      · rename_i w1 f hap
        simp only [Prod.mk.injEq] at h
        obtain ⟨rfl, rfl⟩ := h
        refine .inr ⟨f, [], rec, recs, [], rfl, rfl, .nil, ?_⟩
        rcases appendEntry_cases env w l e w1 _ hap with ⟨_, _, rfl⟩ | ⟨t, h1, h2, _⟩
        · exact .inl (appended_nil l _)
        · exact .inr ⟨(e, t), ⟨he, h1⟩, h2⟩
      · rename_i w1 l1 hap
        rcases appendEntry_cases env w l e w1 _ hap with ⟨_, hx, _⟩ | ⟨t, h1, h2, h3⟩
        · cases hx
        · obtain ⟨g1, g2, _, _, g5⟩ := addEntry_frame env l l1 e h3.symm
          rcases importLoop_cases env rules known recs w1 l1 w' r h with
            ⟨ets, l', k1, k2, k3, k4⟩ | ⟨f, before, bad, after, ets, k1, k2, k3, k4⟩
          · rw [g2] at k2
            refine .inl ⟨(e, t) :: ets, l', k1, .cons ⟨he, h1⟩ k2, ?_, ?_⟩
            · exact Appended.trans g1 h2 k3
            · refine k4.trans ((g5.append_right _).trans ?_)
              simp
          · rw [g2] at k3 k4
            refine .inr ⟨f, rec :: before, bad, after, (e, t) :: ets, k1, by rw [k2]; rfl,
              .cons ⟨he, h1⟩ k3, ?_⟩
            rcases k4 with k4 | ⟨et, k4, k5⟩
            · exact .inl (Appended.trans g1 h2 k4)
            · exact .inr ⟨et, k4, by simpa using Appended.trans g1 h2 k5⟩

theorem readRecords_ok : ∀ (rs : List (Option (List Str))) (recs : List (List Str)),
    readRecords rs = .ok recs → rs = recs.map some
  | [], recs, h => by cases h; rfl
  | none :: rs, recs, h => by simp [readRecords, fail] at h
  | some r :: rs, recs, h => by
    simp only [readRecords, bind, Except.bind] at h
    split at h
    · cases h
    · rename_i q hq
      cases h
      rw [readRecords_ok rs q hq]; rfl

theorem readRecords_bad : ∀ (rs : List (Option (List Str))), none ∈ rs →
    readRecords rs = fail .parse
  | none :: rs, _ => rfl
  | some r :: rs, h => by
    simp only [readRecords, bind, Except.bind]
    rw [readRecords_bad rs (by simpa using h)]
    rfl

theorem importerFromFile_ok (env : Env) (w : World) (fuel : Nat) (csvFile : Str) (rulesFile : Option Str)
    (rules : Rules) (recs : List (List Str))
    (h : importerFromFile env w fuel csvFile rulesFile = .ok (rules, recs)) :
    ∃ csv text, w.read csvFile = some csv ∧
      w.read (rulesFile.getD (csvFile ++ s%".rules")) = some text ∧
      addLines (addRulesFile w fuel) (lines text) Rules.default .root = .ok rules ∧
      (env.csv csv).drop (asUsize rules.vals.skip) = recs.map some := by
  unfold importerFromFile at h
  split at h
  · cases h
  · rename_i csv hcsv
    split at h
    · cases h
    · rename_i text htext
      unfold importerFromStrs at h
      simp only [bind, Except.bind] at h
      split at h
      · cases h
      · rename_i r hr
        split at h
        · cases h
        · rename_i rs hrs
          cases h
          exact ⟨csv, text, hcsv, htext, hr, readRecords_ok _ _ hrs⟩

/-- **C72.** After a successful import the journal file has, after its old contents, the texts of the
entries made by the rules of exactly the records after the first `skip` ones, one entry for each record,
in order; no other file has changed, and the ledger in memory has the same new entries. -/
theorem C72_records (env : Env) (fuel : Nat) (w w' : World) (l l' : Ledger M) (csvFile : Str)
    (rulesFile : Option Str) (h : l.importCsv env fuel w csvFile rulesFile = (w', .ok l')) :
    ∃ csv text rules recs ets, w.read csvFile = some csv ∧
      w.read (rulesFile.getD (csvFile ++ s%".rules")) = some text ∧
      addLines (addRulesFile w fuel) (lines text) Rules.default .root = .ok rules ∧
      (env.csv csv).drop (asUsize rules.vals.skip) = recs.map some ∧
      (0 ≤ rules.vals.skip → (env.csv csv).drop rules.vals.skip.toNat = recs.map some) ∧
      List.Forall₂ (MadeOf env rules l.accountNames l.dateFormat) recs ets ∧
      Appended l w w' (ets.map Prod.snd) ∧ l'.entries.Perm (l.entries ++ ets.map Prod.fst) := by
  unfold Ledger.importCsv at h
  split at h
  · cases h
  · rename_i rules recs hi
    obtain ⟨csv, text, h1, h2, h3, h4⟩ := importerFromFile_ok env w fuel csvFile rulesFile rules recs hi
    rcases importLoop_cases env rules l.accountNames recs w l w' _ h with
      ⟨ets, l1, k1, k2, k3, k4⟩ | ⟨_, _, _, _, _, k1, _⟩
    · cases k1
      refine ⟨csv, text, rules, recs, ets, h1, h2, h3, h4, ?_, k2, k3, k4⟩
      intro hs
      rw [← h4]
      unfold asUsize
      rw [if_neg (by omega)]
    · cases k1

/-- **C71, partial.** If an import fails, the journal file holds its old contents and the entries of the
records before the bad one, all of them; possibly also that of the bad record itself, if it was written
and could not be processed. No other file has changed. Missing from the claim: that these entries are
not written either, which is false (`C71_not_atomic`). -/
theorem C71_failure_partial (env : Env) (fuel : Nat) (w w' : World) (l : Ledger M) (csvFile : Str)
    (rulesFile : Option Str) (f : Fail) (h : l.importCsv env fuel w csvFile rulesFile = (w', .error f)) :
    w' = w ∨ ∃ rules recs before bad after ets,
      importerFromFile env w fuel csvFile rulesFile = .ok (rules, recs) ∧ recs = before ++ bad :: after ∧
      List.Forall₂ (MadeOf (M := M) env rules l.accountNames l.dateFormat) before ets ∧
      ((Appended l w w' (ets.map Prod.snd)) ∨
       ∃ et : Entry M × Str, MadeOf env rules l.accountNames l.dateFormat bad et ∧
        Appended l w w' (ets.map Prod.snd ++ [et.2])) := by
  unfold Ledger.importCsv at h
  split at h
  · cases h; exact .inl rfl
  · rename_i rules recs hi
    rcases importLoop_cases env rules l.accountNames recs w l w' _ h with
      ⟨_, _, k1, _⟩ | ⟨f', before, bad, after, ets, k1, k2, k3, k4⟩
    · cases k1
    · exact .inr ⟨rules, recs, before, bad, after, ets, hi, k2, k3, k4⟩

/-- **C71.** Nothing is written if the failure is in the files to be read: a missing file, a wrong rule,
an unreadable record anywhere after the skipped ones. -/
theorem C71_unreadable (env : Env) (fuel : Nat) (w : World) (l : Ledger M) (csvFile : Str)
    (rulesFile : Option Str) :
    (w.read csvFile = none → l.importCsv env fuel w csvFile rulesFile = (w, fail .file)) ∧
    (∀ csv, w.read csvFile = some csv → w.read (rulesFile.getD (csvFile ++ s%".rules")) = none →
      l.importCsv env fuel w csvFile rulesFile = (w, fail .file)) ∧
    (∀ csv text, w.read csvFile = some csv →
      w.read (rulesFile.getD (csvFile ++ s%".rules")) = some text →
      (∀ f, addLines (addRulesFile w fuel) (lines text) Rules.default .root = .error f →
        l.importCsv env fuel w csvFile rulesFile = (w, .error f)) ∧
      (∀ rules, addLines (addRulesFile w fuel) (lines text) Rules.default .root = .ok rules →
        none ∈ (env.csv csv).drop (asUsize rules.vals.skip) →
        l.importCsv env fuel w csvFile rulesFile = (w, fail .parse))) := by
  unfold Ledger.importCsv importerFromFile importerFromStrs
  refine ⟨fun h => by simp [h, fail], fun csv h1 h2 => by simp [h1, h2, fail], fun csv text h1 h2 => ⟨?_, ?_⟩⟩
  · intro f hf
    simp [h1, h2, hf, bind, Except.bind]
  · intro rules hr hn
    simp [h1, h2, hr, bind, Except.bind, readRecords_bad _ hn, fail]

/-! ### C70: loading again -/

/-- All entries without comments. -/
def Ledger.bareAll (l : Ledger M) : Ledger M := { l with entries := l.entries.map Entry.bare }

theorem addEntry_bareAll (env : Env) (l l' : Ledger M) (e : Entry M) (h : l.addEntry env e = .ok l') :
    l.bareAll.addEntry env e.bare = .ok l'.bareAll := by
  obtain ⟨accs, h1, rfl, accs', h2⟩ := addEntry_ok _ _ _ _ h
  unfold Ledger.addEntry Ledger.bareAll
  simp only
  rw [processAll_bare, processAll_bare, h1, h2]
  simp only [bind, Except.bind, pure, Except.pure]
  rw [← stableSort_map (fun a b => Date.lt a.date b.date) (fun a b => Date.lt a.date b.date) Entry.bare fun _ _ => rfl,
    List.map_append, List.map_cons, List.map_nil]

theorem addEntry_entries (env : Env) (l l' : Ledger M) (e : Entry M) (h : l.addEntry env e = .ok l') :
    ∃ l'', l.bareAll.addEntry env e = .ok l'' := by
  obtain ⟨accs, h1, rfl, accs', h2⟩ := addEntry_ok _ _ _ _ h
  unfold Ledger.addEntry Ledger.bareAll
  simp only [h1, h2, bind, Except.bind, pure, Except.pure]
  exact ⟨_, rfl⟩

theorem appendEntry_bareAll (env : Env) (w w' : World) (l l' : Ledger M) (e : Entry M)
    (h : l.appendEntry env w e = (w', .ok l')) :
    l.addEntry env e = .ok l' ∧ ∃ l'', l.bareAll.appendEntry env w e = (w', .ok l'') := by
  have hadd : l.addEntry env e = .ok l' := by
    rcases appendEntry_cases env w l e w' _ h with ⟨_, hx, _⟩ | ⟨_, _, _, h3⟩
    · cases hx
    · exact h3.symm
  obtain ⟨l'', h2⟩ := addEntry_entries env l l' e hadd
  refine ⟨hadd, l'', ?_⟩
  unfold Ledger.appendEntry at h ⊢
  rw [h2]
  have h3 : l.bareAll.filePath = l.filePath := rfl
  have h4 : l.bareAll.dateFormat = l.dateFormat := rfl
  rw [h3, h4]
  split at h
  · cases h
  · rename_i hc
    rw [if_neg hc]
    split at h
    · cases h
    · rename_i t ht
      split at h
      · cases h
      · rename_i w1 hw1
        rw [(Prod.mk.inj h).1]

/-- The entry can be written and read back without loss: its texts are fit to be written (C18), amounts
have no more than 8 decimals, its accounts are declared and it is valid. -/
def Keeps (env : Env) (known : List Str) (fmt : Str) (e : Entry M) : Prop :=
  (∃ d, e.Writable env fmt d ∧ d ∉ keywords) ∧ e.rounded = e.bare ∧ e.validate = .ok () ∧
  ∀ p ∈ e.postings, p.isEnvelope = false → p.account ∈ known

theorem importLoop_reload (env : Env) (fuel : Nat) (rules : Rules) (path : Str) (cwd : APath)
    (known : List Str) (fmt : Str) : ∀ (recs : List (List Str)) (w w' : World) (l l' : Ledger M),
    l.accountNames = known → l.dateFormat = fmt → resolve w.cwd path = resolve cwd path →
    (∀ r ∈ recs, ∀ e : Entry M, rules.entry env r known = .ok e → Keeps env known fmt e) →
    Ledger.fromFile env fuel { w with cwd := cwd } path = .ok (l.bareAll, w) →
    Ledger.importLoop env rules known recs w l = (w', .ok l') →
    Ledger.fromFile env fuel { w' with cwd := cwd } path = .ok (l'.bareAll, w')
  | [], w, w', l, l', _, _, _, _, hload, h => by
    simp only [Ledger.importLoop, Prod.mk.injEq, Except.ok.injEq] at h
    obtain ⟨rfl, rfl⟩ := h
    exact hload
  | rec :: recs, w, w', l, l', hk, hf, hsame, hkeeps, hload, h => by
    simp only [Ledger.importLoop] at h
    split at h
    · cases h
    · rename_i e he
      split at h
      · cases h
      · rename_i w1 l1 hap
        obtain ⟨⟨d, hw, hd⟩, hr, hv, hacc⟩ := hkeeps rec (by simp) e he
        obtain ⟨hadd, l2, hap2⟩ := appendEntry_bareAll env w w1 l l1 e hap
        have hre := append_reload env fuel { w with cwd := cwd } w w1 path l.bareAll l2 e d hload hsame
          (by rw [← hf] at hw; exact hw) hd hv (by rw [← hk] at hacc; exact hacc) hap2
        rw [hr, addEntry_bareAll env l l1 e hadd] at hre
        obtain ⟨g1, g2, _, g4, _⟩ := addEntry_frame env l l1 e hadd
        have hcwd : w1.cwd = w.cwd := by
          rcases appendEntry_cases env w l e w1 _ hap with ⟨_, hx, _⟩ | ⟨_, _, h2, _⟩
          · cases hx
          · exact h2.1
        exact importLoop_reload env fuel rules path cwd known fmt recs w1 w' l1 l' (g4.trans hk)
          (g2.trans hf) (by rw [hcwd]; exact hsame) (fun r hr => hkeeps r (by simp [hr])) hre h

/-- **C70, partial.** After a successful import the extended journal loads, and loading it from the same
directory gives the accounts, envelopes and entries held in memory (without the comments of entries),
provided that the entries made by the rules can be written and read back (`Keeps`) and the path denotes
the same file as before loading (C60). Missing from the claim: other entries, for which it is false
(`C70_undeclared_account`, `C70_description`). -/
theorem C70_loads_partial (env : Env) (fuel fuel' : Nat) (w w1 w' : World) (path : Str) (l l' : Ledger M)
    (csvFile : Str) (rulesFile : Option Str)
    (hload : Ledger.fromFile env fuel w path = .ok (l, w1))
    (hsame : resolve w1.cwd path = resolve w.cwd path)
    (hkeeps : ∀ rules recs, importerFromFile env w1 fuel' csvFile rulesFile = .ok (rules, recs) →
      ∀ r ∈ recs, ∀ e : Entry M, rules.entry env r l.accountNames = .ok e →
        Keeps env l.accountNames l.dateFormat e)
    (h : l.importCsv env fuel' w1 csvFile rulesFile = (w', .ok l')) :
    Ledger.fromFile env fuel { w' with cwd := w.cwd } path =
      .ok ({ l' with entries := l'.entries.map fun e => { e with comment := none } }, w') := by
  unfold Ledger.importCsv at h
  split at h
  · cases h
  · rename_i rules recs hi
    refine importLoop_reload env fuel rules path w.cwd l.accountNames l.dateFormat recs w1 w' l l' rfl rfl
      hsame (hkeeps rules recs hi) ?_ h
    have hplain := loaded_plain env fuel w w1 path l hload
    obtain ⟨_, hfile, hcan⟩ := fromFile_sound env fuel w w1 path l hload
    have h1 : ({ w1 with cwd := w.cwd } : World) = w := by rw [hfile, hcan]
    have h2 : l.bareAll = l := by
      show ({ l with entries := l.entries.map Entry.bare } : Ledger M) = l
      rw [List.map_congr_left (g := id), List.map_id]
      intro x hx
      have := hplain.comments x hx
      show ({ x with comment := none } : Entry M) = x
      rw [← this]
    rw [h1, h2]; exact hload

/-! ### Examples and counterexamples -/

/-- A directory with a journal, a CSV file and its rules. -/
def importDisk (accounts csv rules : String) : World :=
  disk [("j", accounts), ("b.csv", csv), ("b.csv.rules", rules)]

/-- Import `b.csv` into the journal: the journal afterwards, whether the import succeeded, and whether
the journal loads again. -/
def importAndLoad (w : World) : Res (Option Str × Bool × Bool) := do
  let (l, w1) ← (Ledger.fromFile (stdEnv june15) 9 w s%"j" : Res (Ledger F64 × World))
  match l.importCsv (stdEnv june15) 9 w1 s%"b.csv" none with
  | (w', r) =>
    pure (w'.read s%"j", r.isOk,
      (Ledger.fromFile (stdEnv june15) 9 { w' with cwd := w.cwd } s%"j" :
        Res (Ledger F64 × World)).isOk)

/-- Two records are imported after the header, in order. -/
example : importAndLoad (importDisk "account a\naccount b\n" "Date,What,Amount\n2024/06/01,Tea,3\n2024/06/02,Milk,2\n"
      "fields date, description, amount\naccount1 a\namount1 %amount%\naccount2 b\namount2 -%amount%\n") =
    .ok (some s%"account a\naccount b\n\n2024/06/01 ~ Tea\n    b                                                  -3\n    a                                                   3\n\n2024/06/02 ~ Milk\n    b                                                  -2\n    a                                                   2\n",
      true, true) := by
  decide +kernel

/-- **C70, refuted.** With a single account in the rules, as in the simplest use, the other half is posted
to `expenses:unknown`; unless the journal happens to declare it, it does not load any more. -/
theorem C70_undeclared_account :
    (importAndLoad (importDisk "account a\n" "Date,What,Amount\n2024/06/01,Tea,-3\n"
      "fields date, description, amount\naccount1 a\namount1 %amount%\n")).map (fun x => x.2) =
    .ok (true, false) := by
  decide +kernel

/-- **C70, refuted.** A bracket in the description of a record is enough. -/
theorem C70_description :
    (importAndLoad (importDisk "account a\naccount expenses:unknown\n" "Date,What,Amount\n2024/06/01,Tea [x,-3\n"
      "fields date, description, amount\naccount1 a\namount1 %amount%\n")).map (fun x => x.2) =
    .ok (true, false) := by
  decide +kernel

/-- **C71, refuted.** The second of two records has a bad date: the import fails, and the entry of the
first has been written. -/
theorem C71_not_atomic :
    importAndLoad (importDisk "account a\naccount b\n" "Date,What,Amount\n2024/06/01,Tea,3\nx,Milk,2\n"
      "fields date, description, amount\naccount1 a\namount1 %amount%\naccount2 b\namount2 -%amount%\n") =
    .ok (some s%"account a\naccount b\n\n2024/06/01 ~ Tea\n    b                                                  -3\n    a                                                   3\n",
      false, true) := by
  decide +kernel

/-- **C72, at its border.** A negative `skip` skips every record. -/
theorem C72_negative_skip :
    importAndLoad (importDisk "account a\naccount b\n" "Date,What,Amount\n2024/06/01,Tea,3\n"
      "skip -1\nfields date, description, amount\naccount1 a\namount1 %amount%\naccount2 b\namount2 -%amount%\n") =
    .ok (some s%"account a\naccount b\n", true, true) := by
  decide +kernel

end Silverfox
