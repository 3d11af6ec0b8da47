import Verif.Props.Order
import Verif.Props.FillDays

/-
What happens to the files: C58, C59, C60, C62; and C42 for a whole ledger.
-/

namespace Silverfox

set_option linter.unusedSectionVars false
variable {M : Type} [Mag M]

/-! ### Specification -/

/-- The files of `w'` are those of `w`, except that the file `t` may have become longer. -/
structure Extended (t : APath) (w w' : World) : Prop where
  others : ∀ b, b ≠ t → w'.file b = w.file b
  prefixed : ∀ old, w.file t = some old → ∃ new, w'.file t = some (old ++ new)
  absent : w.file t = none → w'.file t = none

theorem Extended.refl (t : APath) (w : World) : Extended t w w :=
  ⟨fun _ _ => rfl, fun old h => ⟨[], by simpa using h⟩, fun h => h⟩

theorem Extended.of_eq (t : APath) {w w' : World} (h : w'.file = w.file) : Extended t w w' :=
  ⟨fun _ _ => by rw [h], fun old ho => ⟨[], by rw [h]; simpa using ho⟩, fun hn => by rw [h]; exact hn⟩

theorem Extended.trans {t : APath} {a b c : World} (h : Extended t a b) (h' : Extended t b c) :
    Extended t a c := by
  refine ⟨fun x hx => by rw [h'.others x hx, h.others x hx], fun old ho => ?_, fun hn => h'.absent (h.absent hn)⟩
  obtain ⟨n1, h1⟩ := h.prefixed old ho
  obtain ⟨n2, h2⟩ := h'.prefixed _ h1
  exact ⟨n1 ++ n2, by rw [h2]; simp⟩

theorem append_extended (w w' : World) (p s : Str) (h : w.append p s = some w') :
    Extended (resolve w.cwd p) w w' ∧ w'.cwd = w.cwd ∧ w'.canAppend = w.canAppend ∧
    ∃ old, w.file (resolve w.cwd p) = some old ∧ w'.file (resolve w.cwd p) = some (old ++ s) := by
  unfold World.append at h
  simp only at h
  split at h
  · split at h
    · rename_i old ho
      cases h
      refine ⟨⟨fun b hb => ?_, fun o h2 => ?_, fun h2 => ?_⟩, rfl, rfl, old, ho, ?_⟩
      · simp [World.write, hb]
      · rw [ho] at h2; cases h2
        exact ⟨s, by simp [World.write]⟩
      · rw [ho] at h2; cases h2
      · simp [World.write]
    · cases h
  · cases h

theorem addEntry_path (env : Env) (l l' : Ledger M) (e : Entry M) (h : l.addEntry env e = .ok l') :
    l'.filePath = l.filePath := by
  obtain ⟨_, _, rfl, _⟩ := addEntry_ok _ _ _ _ h
  rfl

theorem appendEntry_extended (env : Env) (w : World) (l : Ledger M) (e : Entry M) :
    Extended (resolve w.cwd l.filePath) w (l.appendEntry env w e).1 ∧
    (l.appendEntry env w e).1.cwd = w.cwd ∧
    ∀ l', (l.appendEntry env w e).2 = .ok l' → l'.filePath = l.filePath := by
  unfold Ledger.appendEntry
  split
  · exact ⟨.refl _ _, rfl, fun l' h => by cases h⟩
  · split
    · exact ⟨.refl _ _, rfl, fun l' h => by cases h⟩
    · split
      · exact ⟨.refl _ _, rfl, fun l' h => by cases h⟩
      · rename_i w' hw
        obtain ⟨h1, h2, _⟩ := append_extended _ _ _ _ hw
        exact ⟨h1, h2, fun l' h => addEntry_path env l l' e h⟩

theorem fillEnvelopes_extended (env : Env) (w : World) (l : Ledger M) :
    Extended (resolve w.cwd l.filePath) w (l.fillEnvelopes env w).1 ∧
    (l.fillEnvelopes env w).1.cwd = w.cwd ∧
    ∀ l', (l.fillEnvelopes env w).2 = .ok l' → l'.filePath = l.filePath := by
  unfold Ledger.fillEnvelopes
  split
  · exact ⟨.refl _ _, rfl, fun l' h => by cases h⟩
  · simp only
    split
    · exact ⟨.refl _ _, rfl, fun l' h => by cases h; rfl⟩
    · exact appendEntry_extended env w l _

theorem importLoop_extended (env : Env) (rules : Rules) (known : List Str) (rs : List (List Str))
    (w : World) (l : Ledger M) :
    Extended (resolve w.cwd l.filePath) w (Ledger.importLoop env rules known rs w l).1 := by
  induction rs generalizing w l with
  | nil => exact .refl _ _
  | cons r rs ih =>
    simp only [Ledger.importLoop]
    split
    · exact .refl _ _
    · rename_i e he
      obtain ⟨h1, h2, h3⟩ := appendEntry_extended env w l e
      split
      · rename_i w1 f hf
        rw [hf] at h1; exact h1
      · rename_i w1 l1 hf
        rw [hf] at h1 h2 h3
        have := ih w1 l1
        simp only at h2
        rw [h2, h3 l1 rfl] at this
        exact h1.trans this

theorem runSub_extended (env : Env) (o : Outside) (f : Flags) (w : World) (l : Ledger M) :
    Extended (resolve w.cwd l.filePath) w (runSub env o f w l).1 ∧
    (f.sub ≠ .import_ → (runSub env o f w l).1 = w) := by
  unfold runSub
  cases hs : f.sub with
  | balance => exact ⟨.refl _ _, fun _ => rfl⟩
  | envelopes => exact ⟨.refl _ _, fun _ => rfl⟩
  | register =>
    simp only
    split <;> exact ⟨.refl _ _, fun _ => rfl⟩
  | summary => exact ⟨.refl _ _, fun _ => rfl⟩
  | new => exact ⟨.refl _ _, fun _ => rfl⟩
  | import_ =>
    refine ⟨?_, fun h => absurd rfl h⟩
    simp only
    split
    · exact .refl _ _
    · rename_i c hc
      have h : Extended (resolve w.cwd l.filePath) w (l.importCsv env o.fuel w c f.rules).1 := by
        unfold Ledger.importCsv
        split
        · exact .refl _ _
        · exact importLoop_extended env _ _ _ w l
      split
      · rename_i w1 l1 hf
        rw [hf] at h; exact h
      · rename_i w1 x hf
        rw [hf] at h; exact h

/-- Which file is extended: the path that was given, resolved in the directory in which loading left
the program. -/
theorem execute_extended (env : Env) (o : Outside) (f : Flags) (w : World) (path : Str)
    (l : Ledger M) (w1 : World) (hp : f.file.or o.file = some path)
    (h : Ledger.fromFile env o.fuel w path = .ok (l, w1)) :
    Extended (resolve w1.cwd path) w (execute M env o f w).1 := by
  obtain ⟨⟨is, hs⟩, hfile, _⟩ := fromFile_sound env _ _ _ _ _ h
  have hpath : l.filePath = path := hs.filePath.1
  have h0 : Extended (resolve w1.cwd path) w w1 := .of_eq _ hfile
  unfold execute
  rw [hp]
  simp only [h]
  split
  · have := (runSub_extended env o f w1 l).1
    rw [hpath] at this
    exact h0.trans this
  · obtain ⟨h1, h2, h3⟩ := fillEnvelopes_extended env w1 l
    rw [hpath] at h1
    split
    · rename_i w2 x hf
      rw [hf] at h1
      exact h0.trans h1
    · rename_i w2 l2 hf
      rw [hf] at h1 h2 h3
      have h4 := (runSub_extended env o f w2 l2).1
      simp only at h2
      rw [h2, h3 l2 rfl, hpath] at h4
      exact (h0.trans h1).trans h4

/-! ### C58 -/

/-- C58: whatever the arguments, the journal and the day, silverfox changes at most one file, and
what was in that file remains as a prefix of what is there afterwards. -/
theorem C58_append_only (M : Type) [Mag M] (env : Env) (o : Outside) (args : List Str) (w : World) :
    ∃ t, Extended t w (mainProgram M env o args w).1 := by
  unfold mainProgram
  split
  · exact ⟨[], .refl _ _⟩
  · exact ⟨[], .refl _ _⟩
  · rename_i f hf
    cases hp : f.file.or o.file with
    | none => exact ⟨[], by unfold execute; rw [hp]; exact .refl _ _⟩
    | some path =>
      cases hl : (Ledger.fromFile env o.fuel w path : Res (Ledger M × World)) with
      | error x => exact ⟨[], by unfold execute; rw [hp]; simp only [hl]; exact .refl _ _⟩
      | ok r => exact ⟨_, execute_extended env o f w path r.1 r.2 hp hl⟩

/-- C58: with `--no-move`, a command that is not an import changes no file. -/
theorem C58_no_move_changes_nothing (M : Type) [Mag M] (env : Env) (o : Outside) (f : Flags)
    (w : World) (hn : f.noMove = true) (hs : f.sub ≠ .import_) :
    (execute M env o f w).1.file = w.file := by
  unfold execute
  split
  · rfl
  · split
    · rfl
    · rename_i l w1 hl
      rw [if_pos hn, (runSub_extended env o f w1 l).2 hs]
      exact (fromFile_sound env _ _ _ _ _ hl).2.1

/-- C58: on the command line, for instance `silverfox balance --no-move -f j`. -/
theorem C58_no_move_command_line (M : Type) [Mag M] (env : Env) (o : Outside) (args : List Str)
    (w : World) (f : Flags) (ha : Flags.parse args = .ok (some f)) (hn : f.noMove = true)
    (hs : f.sub ≠ .import_) : (mainProgram M env o args w).1.file = w.file := by
  unfold mainProgram
  rw [ha]
  exact C58_no_move_changes_nothing M env o f w hn hs

/-- The journal of an account with an envelope to be filled. -/
def exJournal : String :=
  "account a\n  expense food due every 1st\n    amount 50\n    funding aggressive\naccount b
2024/01/02 * pay\n a 30\n b -30\n"

/-- What is outside, for the examples. -/
def exOutside : Outside := ⟨none, none, true, 9⟩

/-- Asking for the balance moves 30 into the envelope: the file grows by an entry, its old contents
first. With `-n` it does not. -/
example : (mainProgram Rat (stdEnv june15) exOutside [s%"balance", s%"-f", s%"j"] (disk [("j", exJournal)])).1.file
      [s%"h", s%"j"]
    = some (exJournal.toList ++ s%"\n2024/06/15 ~ move to envelopes // automatically generated by silverfox
    envelope a food                                     30\n") ∧
    (mainProgram Rat (stdEnv june15) exOutside [s%"balance", s%"-n", s%"-f", s%"j"] (disk [("j", exJournal)])).1.file
      [s%"h", s%"j"] = some exJournal.toList := by decide +kernel

/-! ### C59 -/

/-- C59: if the journal cannot be loaded, or the arguments cannot be understood, nothing at all
changes: files are as before. Read backwards: if a file has changed, the journal had been loaded. -/
theorem C59_changed_only_if_loaded (M : Type) [Mag M] (env : Env) (o : Outside) (args : List Str)
    (w : World) (b : APath) (h : (mainProgram M env o args w).1.file b ≠ w.file b) :
    ∃ f path, Flags.parse args = .ok (some f) ∧ f.file.or o.file = some path ∧
      ∃ r : Ledger M × World, Ledger.fromFile env o.fuel w path = .ok r := by
  unfold mainProgram at h
  split at h
  · exact absurd rfl h
  · exact absurd rfl h
  · rename_i f hf
    cases hp : f.file.or o.file with
    | none => exfalso; unfold execute at h; rw [hp] at h; exact h rfl
    | some path =>
      refine ⟨f, path, hf, hp, ?_⟩
      cases hl : (Ledger.fromFile env o.fuel w path : Res (Ledger M × World)) with
      | error x => exfalso; unfold execute at h; rw [hp] at h; simp only [hl] at h; exact h rfl
      | ok r => exact ⟨r, rfl⟩

/-- C59: the error of loading is the outcome, and the files are as before. -/
theorem C59_loading_error (M : Type) [Mag M] (env : Env) (o : Outside) (f : Flags) (w : World)
    (path : Str) (x : Fail) (hp : f.file.or o.file = some path)
    (h : (Ledger.fromFile env o.fuel w path : Res (Ledger M × World)) = .error x) :
    (execute M env o f w).1.file = w.file ∧ (execute M env o f w).2 = .error x := by
  unfold execute
  rw [hp]
  simp only [h]
  exact ⟨trivial, trivial⟩

/-- The journal with an error in its last line. -/
def exBadDisk : World := disk [("j", exJournal ++ "2024/01/03 * oops\n c 1\n")]

/-- The envelope is not filled. -/
example : (mainProgram Rat (stdEnv june15) exOutside [s%"balance", s%"-f", s%"j"] exBadDisk).1.file [s%"h", s%"j"]
      = exBadDisk.file [s%"h", s%"j"] ∧
    (mainProgram Rat (stdEnv june15) exOutside [s%"balance", s%"-f", s%"j"] exBadDisk).2
      = .error (.err .validation) := by
  decide +kernel

/-! ### C60 -/

/-- C60, where it holds. Full statement: an entry is appended to the journal file that was loaded.
Proved for absolute paths, with any includes. -/
theorem C60_absolute_path_partial (M : Type) [Mag M] (env : Env) (o : Outside) (f : Flags) (w : World)
    (path : Str) (hp : f.file.or o.file = some path) (habs : path.head? = some '/') :
    Extended (resolve w.cwd path) w (execute M env o f w).1 := by
  cases hl : (Ledger.fromFile env o.fuel w path : Res (Ledger M × World)) with
  | error x => exact .of_eq _ (C59_loading_error M env o f w path x hp hl).1
  | ok r =>
    have := execute_extended env o f w path r.1 r.2 hp hl
    unfold resolve at this ⊢
    simpa [habs] using this

/-- C60 for any other path: the right file is extended if loading has not left the working directory. -/
theorem C60_same_directory_partial (M : Type) [Mag M] (env : Env) (o : Outside) (f : Flags) (w : World)
    (path : Str) (hp : f.file.or o.file = some path) (r : Ledger M × World)
    (hl : Ledger.fromFile env o.fuel w path = .ok r) (hcwd : r.2.cwd = w.cwd) :
    Extended (resolve w.cwd path) w (execute M env o f w).1 := by
  have := execute_extended env o f w path r.1 r.2 hp hl
  rwa [hcwd] at this

/-- C60 is false for every relative path with a directory in it: if loading ends in the directory of
the journal, as it does without includes, then the file that is extended is another one. -/
theorem C60_relative_path_goes_elsewhere (cwd : APath) (path : Str) (comps : List Str)
    (hrel : path.head? ≠ some '/') (hcomps : splitOn '/' path = comps) (hlen : 2 ≤ comps.length)
    (hplain : ∀ c ∈ comps, c ≠ [] ∧ c ≠ s%"." ∧ c ≠ s%"..") :
    resolve (resolve cwd path).dropLast path ≠ resolve cwd path := by
  have key : ∀ (cs : List Str) (acc : APath), (∀ c ∈ cs, c ≠ [] ∧ c ≠ s%"." ∧ c ≠ s%"..") →
      cs.foldl stepPath acc = acc ++ cs := by
    intro cs
    induction cs with
    | nil => intro acc _; simp
    | cons c cs ih =>
      intro acc h
      obtain ⟨h1, h2, h3⟩ := h c (by simp)
      rw [List.foldl_cons, ih _ (fun x hx => h x (by simp [hx]))]
      simp [stepPath, h1, h2, h3]
  have hres : ∀ d : APath, resolve d path = d ++ comps := by
    intro d
    unfold resolve
    rw [if_neg hrel, hcomps, key comps d hplain]
  intro h
  rw [hres, hres] at h
  have := congrArg List.length h
  simp only [List.length_append, List.length_dropLast] at this
  omega

/-- A disk with the journal in a subdirectory. -/
def subdirDisk (files : List (APath × Str)) : World where
  file := fun p => (files.find? fun f => f.1 = p).map Prod.snd
  canAppend := fun _ => true
  cwd := [s%"h"]

/-- C60 is false: of `money/j`, loaded from `/h/money/j`, the fill entry goes to `/h/money/money/j` if
there is such a file, and otherwise the command fails. -/
theorem C60_wrong_file_extended :
    (∃ new, (execute Rat (stdEnv june15) exOutside ⟨some s%"money/j", .balance, false, none, none⟩
      (subdirDisk [([s%"h", s%"money", s%"j"], exJournal.toList), ([s%"h", s%"money", s%"money", s%"j"], s%"other")])).1.file
        [s%"h", s%"money", s%"money", s%"j"] = some (s%"other" ++ new) ∧ new ≠ []) ∧
    (execute Rat (stdEnv june15) exOutside ⟨some s%"money/j", .balance, false, none, none⟩
      (subdirDisk [([s%"h", s%"money", s%"j"], exJournal.toList)])).2 = .error (.err .file) := by
  refine ⟨⟨s%"\n2024/06/15 ~ move to envelopes // automatically generated by silverfox
    envelope a food                                     30\n", ?_, by simp⟩, ?_⟩
  · decide +kernel
  · decide +kernel

/-- The same journal with an absolute path. -/
example : ∃ new, (execute Rat (stdEnv june15) exOutside ⟨some s%"/h/money/j", .balance, false, none, none⟩
      (subdirDisk [([s%"h", s%"money", s%"j"], exJournal.toList)])).1.file
        [s%"h", s%"money", s%"j"] = some (exJournal.toList ++ new) ∧ new ≠ [] := by
  refine ⟨s%"\n2024/06/15 ~ move to envelopes // automatically generated by silverfox
    envelope a food                                     30\n", ?_, by simp⟩
  decide +kernel

/-! ### C62 -/

theorem fillAll_ok (today : Date) (as : List (Str × Account M)) (ps : List (EnvPosting M))
    (h : Ledger.fillAll today as = .ok ps) :
    (∀ k a, (k, a) ∈ as → ∃ qs, a.fillingPostings today = .ok qs ∧ ∀ q ∈ qs, q ∈ ps) ∧
    (∀ p ∈ ps, ∃ k a qs, (k, a) ∈ as ∧ a.fillingPostings today = .ok qs ∧ p ∈ qs) := by
  induction as generalizing ps with
  | nil => cases h; simp
  | cons x as ih =>
    obtain ⟨k, a⟩ := x
    simp only [Ledger.fillAll, bind, Except.bind, pure, Except.pure] at h
    split at h
    · cases h
    · rename_i qs hq
      split at h
      · cases h
      · rename_i rs hr
        cases h
        obtain ⟨h1, h2⟩ := ih rs hr
        refine ⟨fun k' a' hm => ?_, fun p hp => ?_⟩
        · rcases List.mem_cons.1 hm with hm | hm
          · cases hm; exact ⟨qs, hq, fun q hx => by simp [hx]⟩
          · obtain ⟨qs', h3, h4⟩ := h1 k' a' hm
            exact ⟨qs', h3, fun q hx => by simp [h4 q hx]⟩
        · rcases List.mem_append.1 hp with hp | hp
          · exact ⟨k, a, qs, by simp, hq, hp⟩
          · obtain ⟨k', a', qs', h3, h4, h5⟩ := h2 p hp
            exact ⟨k', a', qs', by simp [h3], h4, h5⟩

/-- C62: filling either leaves everything as it is, when no envelope is due any money, or appends one
entry. That entry is dated today and cleared; it has at least one posting; each of its postings is a
fill posting of one of the accounts, and its amount is not zero. In any arithmetic. -/
theorem C62_fill_entry (env : Env) (hord : FairOrder env.ord) (w w' : World) (l l' : Ledger M)
    (h : l.fillEnvelopes env w = (w', .ok l')) :
    (w' = w ∧ l' = l ∧ ∀ k a qs, (k, a) ∈ l.accounts → a.fillingPostings env.today = .ok qs →
      ∀ q ∈ qs, Mag.eq q.amount.mag (Mag.zero : M) = true) ∨
    (∃ e text old, l.addEntry env e = .ok l' ∧ e.asParsable env l.dateFormat = .ok text ∧
      w.file (resolve w.cwd l.filePath) = some old ∧
      w'.file (resolve w.cwd l.filePath) = some (old ++ '\n' :: text) ∧
      e.date = env.today ∧ e.status = .cleared ∧ e.postings ≠ [] ∧
      (∀ p ∈ e.postings, ∃ q, p = .envelope q ∧ Mag.eq q.amount.mag (Mag.zero : M) = false ∧
        ∃ k a qs, (k, a) ∈ l.accounts ∧ a.fillingPostings env.today = .ok qs ∧ q ∈ qs) ∧
      (∀ k a qs, (k, a) ∈ l.accounts → a.fillingPostings env.today = .ok qs →
        ∀ q ∈ qs, Mag.eq q.amount.mag (Mag.zero : M) = false → .envelope q ∈ e.postings)) := by
  unfold Ledger.fillEnvelopes at h
  split at h
  · cases h
  · rename_i ps hps
    obtain ⟨h1, h2⟩ := fillAll_ok _ _ _ hps
    have hmem : ∀ x, x ∈ env.ord l.accounts ↔ x ∈ l.accounts := fun x => (hord _ l.accounts).mem_iff
    simp only at h
    split at h
    · rename_i hemp
      cases h
      refine Or.inl ⟨rfl, rfl, fun k a qs hm hq q hqq => ?_⟩
      obtain ⟨qs', h3, h4⟩ := h1 k a ((hmem _).2 hm)
      rw [hq] at h3; cases h3
      rw [List.isEmpty_iff, List.filter_eq_nil_iff] at hemp
      have := hemp q (h4 q hqq)
      simpa using this
    · rename_i hne
      refine Or.inr ⟨Ledger.fillEntry env.today (ps.filter fun p => !Mag.eq p.amount.mag (Mag.zero : M)), ?_⟩
      unfold Ledger.appendEntry at h
      split at h
      · cases h
      · split at h
        · cases h
        · rename_i text htext
          split at h
          · cases h
          · rename_i w1 hw1
            obtain ⟨hw', hadd⟩ := Prod.mk.inj h
            subst hw'
            obtain ⟨_, _, _, old, h5, h6⟩ := append_extended _ _ _ _ hw1
            refine ⟨text, old, hadd, htext, h5, h6, rfl, rfl, ?_, ?_, ?_⟩
            · intro hnil
              apply hne
              have : (ps.filter fun p => !Mag.eq p.amount.mag (Mag.zero : M)).map Posting.envelope = [] := hnil
              rw [List.map_eq_nil_iff] at this
              rw [this]; rfl
            · intro p hp
              have hp' : p ∈ (ps.filter fun p => !Mag.eq p.amount.mag (Mag.zero : M)).map Posting.envelope := hp
              rw [List.mem_map] at hp'
              obtain ⟨q, hq, rfl⟩ := hp'
              rw [List.mem_filter] at hq
              obtain ⟨k, a, qs, h7, h8, h9⟩ := h2 q hq.1
              exact ⟨q, rfl, by simpa using hq.2, k, a, qs, (hmem _).1 h7, h8, h9⟩
            · intro k a qs hm hq q hqq hz
              obtain ⟨qs', h3, h4⟩ := h1 k a ((hmem _).2 hm)
              rw [hq] at h3; cases h3
              show Posting.envelope q ∈ (ps.filter fun p => !Mag.eq p.amount.mag (Mag.zero : M)).map Posting.envelope
              exact List.mem_map.2 ⟨q, List.mem_filter.2 ⟨h4 q hqq, by simp [hz]⟩, rfl⟩

/-! ### C42 for a ledger -/

theorem fillingAmount_nextDue (today : Date) (e : Envelope M) (av a : Amount M)
    (h : e.fillingAmount today av = .ok a) : ∃ d, e.nextDue today = .ok d := by
  unfold Envelope.fillingAmount at h
  split at h
  · cases h
  · simp only [bind, Except.bind] at h
    split at h
    · cases h
    · rename_i d hd
      exact ⟨d, hd⟩

theorem fillingPostings_nextDue (today : Date) (a : Account M) (ps : List (EnvPosting M))
    (h : a.fillingPostings today = .ok ps) : ∀ e ∈ a.envelopes, ∃ d, e.nextDue today = .ok d := by
  have key : ∀ (es : List (Envelope M)) (avail : Pool M) (ps : List (EnvPosting M)),
      Account.fillLoop today es avail = .ok ps → ∀ e ∈ es, ∃ d, e.nextDue today = .ok d := by
    intro es
    induction es with
    | nil => intro _ _ _ e he; cases he
    | cons x es ih =>
      intro avail ps h e he
      obtain ⟨p, ps', rfl, h1, h2⟩ := fillLoop_cons today x es avail ps h
      rcases List.mem_cons.1 he with rfl | he
      · exact fillingAmount_nextDue today _ _ _ (fillingPosting_ok _ _ _ _ h1).2.2
      · exact ih _ _ h2 e he
  intro e he
  exact key _ _ _ h e (by simpa using he)

theorem fillLoop_account (today : Date) (es : List (Envelope M)) (avail : Pool M)
    (ps : List (EnvPosting M)) (h : Account.fillLoop today es avail = .ok ps) (n : Str)
    (hn : ∀ e ∈ es, e.account = n) : ∀ p ∈ ps, p.account = n := by
  induction es generalizing avail ps with
  | nil => cases h; simp
  | cons e es ih =>
    obtain ⟨p, ps', rfl, h1, h2⟩ := fillLoop_cons today e es avail ps h
    intro q hq
    rcases List.mem_cons.1 hq with rfl | hq
    · rw [(fillingPosting_ok _ _ _ _ h1).1]; exact hn e (by simp)
    · exact ih _ _ h2 (fun x hx => hn x (by simp [hx])) q hq

theorem fillAll_of (today : Date) (as : List (Str × Account M))
    (h : ∀ p ∈ as, ∃ qs, p.2.fillingPostings today = .ok qs) : ∃ ps, Ledger.fillAll today as = .ok ps := by
  induction as with
  | nil => exact ⟨[], rfl⟩
  | cons x as ih =>
    obtain ⟨qs, hq⟩ := h x (by simp)
    obtain ⟨ps, hp⟩ := ih (fun p hp => h p (by simp [hp]))
    exact ⟨qs ++ ps, by obtain ⟨k, a⟩ := x; simp only [Ledger.fillAll, bind, Except.bind, hq, hp]; rfl⟩

theorem no_fill (env : Env) (hord : FairOrder env.ord) (w : World) (l : Ledger M)
    (hz : ∀ k a, (k, a) ∈ l.accounts → ∃ qs, a.fillingPostings env.today = .ok qs ∧
      ∀ q ∈ qs, Mag.eq q.amount.mag (Mag.zero : M) = true) : l.fillEnvelopes env w = (w, .ok l) := by
  have hmem : ∀ (x : Str × Account M) (as : List (Str × Account M)), x ∈ env.ord as ↔ x ∈ as :=
    fun x as => (hord _ as).mem_iff
  obtain ⟨ps, hps⟩ := fillAll_of env.today (env.ord l.accounts) (fun p hp => by
    obtain ⟨qs, hq, _⟩ := hz p.1 p.2 ((hmem _ _).1 hp); exact ⟨qs, hq⟩)
  obtain ⟨_, h2⟩ := fillAll_ok _ _ _ hps
  unfold Ledger.fillEnvelopes
  rw [hps]
  have : (ps.filter fun p => !Mag.eq p.amount.mag (Mag.zero : M)) = [] := by
    rw [List.filter_eq_nil_iff]
    intro p hp
    obtain ⟨k, a, qs, h3, h4, h5⟩ := h2 p hp
    obtain ⟨qs', h6, h7⟩ := hz k a ((hmem _ _).1 h3)
    rw [h4] at h6; cases h6
    simp [h7 p h5]
  simp only [this]
  rfl

/-- After filling, all fill postings are zero. -/
theorem filled_zero (env : Env) (hord : FairOrder env.ord) (w w' : World)
    (l l' : Ledger Rat) (hl : l.Inv) (h : l.fillEnvelopes env w = (w', .ok l')) :
    ∀ k a, (k, a) ∈ l'.accounts → ∃ qs, a.fillingPostings env.today = .ok qs ∧ ∀ q ∈ qs, q.amount.mag = 0 := by
  have hmem : ∀ (x : Str × Account Rat) (as : List (Str × Account Rat)), x ∈ env.ord as ↔ x ∈ as :=
    fun x as => (hord _ as).mem_iff
  -- all fill postings of the first run exist
  have hfirst : ∃ ps, Ledger.fillAll env.today (env.ord l.accounts) = .ok ps := by
    unfold Ledger.fillEnvelopes at h
    split at h
    · cases h
    · rename_i ps hps; exact ⟨ps, hps⟩
  obtain ⟨ps0, hps0⟩ := hfirst
  obtain ⟨hf1, hf2⟩ := fillAll_ok _ _ _ hps0
  rcases C62_fill_entry env hord w w' l l' h with ⟨_, rfl, hzero⟩ | ⟨e, text, old, hadd, _, _, _, hdate, _, hne, hps, hps'⟩
  · intro k a hm
    obtain ⟨qs, hq, _⟩ := hf1 k a ((hmem _ _).2 hm)
    refine ⟨qs, hq, fun q hqq => ?_⟩
    have := hzero k a qs hm hq q hqq
    simpa [Mag.eq, Mag.zero] using this
  · intro k a' hm
    obtain ⟨accs, h1, rfl, _⟩ := addEntry_ok _ _ _ _ hadd
    obtain ⟨_, h3⟩ := processAll_ok _ _ _ _ h1
    obtain ⟨a, ha, hproc⟩ := h3 k a' hm
    obtain ⟨qs, hq, _⟩ := hf1 k a ((hmem _ _).2 ha)
    have hwf := hl.wf k a ha
    have hwf' := processEntry_wf _ _ _ _ hproc hwf
    have hdue := fillingPostings_nextDue _ _ _ hq
    have hdue' : ∀ e' ∈ a'.envelopes, ∃ d, e'.nextDue env.today = .ok d := by
      intro e' he'
      obtain ⟨e0, he0, hp0⟩ := forall₂_mem_right (C31_envelopes_independent _ a a' _ hproc) he'
      obtain ⟨d, hd⟩ := hdue e0 he0
      have hf := SameButMoney.fields (processEntry_keeps _ _ _ _ hp0).1
      refine ⟨d, ?_⟩
      unfold Envelope.nextDue at hd ⊢
      rw [hf.2.2.2.2.2.1, hf.2.2.2.2.2.2.2]
      exact hd
    obtain ⟨qs', hq'⟩ := C43_filling_never_crashes env.today a' hwf' hdue'
    refine ⟨qs', hq', ?_⟩
    have hall : ∀ p ∈ e.postings, p.isEnvelope = true := by
      intro p hp
      obtain ⟨q, rfl, _⟩ := hps p hp
      rfl
    have henv : e.hasEnvelopePosting = true := by
      unfold Entry.hasEnvelopePosting
      cases hc : e.postings with
      | nil => exact absurd hc hne
      | cons p rest =>
        rw [List.any_cons, hall p (by rw [hc]; simp)]; rfl
    refine C42_second_fill_moves_nothing env.today a a' hwf qs qs' e hq hdate henv hall ?_ hproc hq'
    intro p hpa
    constructor
    · intro hp
      obtain ⟨q, hq1, hq2, k2, a2, qs2, h5, h6, h7⟩ := hps _ hp
      cases hq1
      have hk2 : a2.name = a.name := by
        have := fillLoop_account env.today _ _ _ h6 a2.name
          (fun x hx => (hl.wf k2 a2 h5).owner x (by simpa using hx)) p h7
        rw [← this, hpa]
      have hkk : k2 = k := by rw [← hl.names k2 a2 h5, ← hl.names k a ha, hk2]
      subst hkk
      have e1 := mapGet_of_mem hl.keys h5
      have e2 := mapGet_of_mem hl.keys ha
      rw [e1] at e2
      cases e2
      rw [hq] at h6; cases h6
      exact ⟨h7, by simpa [Mag.eq, Mag.zero] using hq2⟩
    · rintro ⟨h5, h6⟩
      exact hps' k a qs ha hq p h5 (by simpa [Mag.eq, Mag.zero] using h6)

/-- C42 for a whole ledger, exact arithmetic: after filling, filling again on the same day changes
neither the ledger nor any file, and does not fail. -/
theorem C42_ledger_second_fill (env : Env) (hord : FairOrder env.ord) (w w' w2 : World)
    (l l' : Ledger Rat) (hl : l.Inv) (h : l.fillEnvelopes env w = (w', .ok l')) :
    l'.fillEnvelopes env w2 = (w2, .ok l') := by
  refine no_fill env hord w2 l' fun k a hm => ?_
  obtain ⟨qs, h1, h2⟩ := filled_zero env hord w w' l l' hl h k a hm
  exact ⟨qs, h1, fun q hq => by simp [h2 q hq, Mag.eq, Mag.zero]⟩

/-- C42: the same for a journal that was loaded. -/
theorem C42_loaded_second_fill (env : Env) (hord : FairOrder env.ord) (fuel : Nat) (w w1 w' w2 : World)
    (path : Str) (l l' : Ledger Rat) (hload : Ledger.fromFile env fuel w path = .ok (l, w1))
    (h : l.fillEnvelopes env w1 = (w', .ok l')) : l'.fillEnvelopes env w2 = (w2, .ok l') :=
  C42_ledger_second_fill env hord w1 w' w2 l l' (loaded_inv env fuel w w1 path l hload) h

/-- A case: the journal above, with 30 to be moved. -/
example : ∃ r : Ledger Rat × World, Ledger.fromFile (stdEnv june15) 9 (disk [("j", exJournal)]) s%"j" = .ok r ∧
    ∃ l', (r.1.fillEnvelopes (stdEnv june15) r.2).2 = .ok l' ∧ l'.entries.length = 2 := by decide +kernel

end Silverfox
