import Verif.Props.Include
import Verif.Props.LineEnds
import Verif.Props.FillDoubles

/-
C147: A journal may write its dates in another format.
-/

namespace Silverfox

set_option linter.unusedSectionVars false

variable {M : Type} [Mag M]

/-! ### Specification -/

/-- The format of dates where a journal says nothing else. -/
def usualFormat : Str := s%"%Y/%m/%d"

/-- Somebody who takes the usual format for the format `F`, when they read dates and when they write them. -/
def Env.reading (env : Env) (F : Str) : Env :=
  { env with
    parseDate := fun s f => env.parseDate s (if f = usualFormat then F else f)
    fmtDate := fun d f => env.fmtDate d (if f = usualFormat then F else f) }

/-- The world in which the file at `A` has one line more, at its beginning. -/
def World.headed (w : World) (A : APath) (line : Str) : World :=
  { w with file := fun p => if p = A then (w.file p).map fun s => line ++ '\n' :: s else w.file p }

/-- Specification: no file of the journal says how dates are written. (`S`: the files of the journal.) -/
structure UsualDates (w : World) (S : APath → Prop) : Prop where
  silent : ∀ p t, S p → w.file p = some t → ∀ l ∈ lines t, (splitWs (removeComments l)).head? ≠ some s%"date_format"
  closed : ∀ p t, S p → w.file p = some t → IncludeLines (fun v => ∀ cwd, S (resolve cwd v)) (lines t)

/-! ### Dates are only read and written in the format of the journal -/

section Reading

variable (env : Env) (F : Str)

theorem reading_parse (s : Str) : (env.reading F).parseDate s usualFormat = env.parseDate s F := by
  simp [Env.reading]

theorem reading_fmt (d : Date) : (env.reading F).fmtDate d usualFormat = env.fmtDate d F := by
  simp [Env.reading]

theorem reading_header (h : Str) : (Entry.parseHeader (env.reading F) h usualFormat : Res (Entry M)) = Entry.parseHeader env h F := by
  unfold Entry.parseHeader
  simp only [reading_parse]

theorem reading_entry (c : Str) (d : Char) (ns : List Str) :
    (Entry.parse (env.reading F) c usualFormat d ns : Res (Entry M)) = Entry.parse env c F d ns := by
  unfold Entry.parse
  simp only [reading_header]

theorem reading_frequency (s : Str) (st : Option Date) :
    Frequency.parse (env.reading F) s usualFormat st = Frequency.parse env s F st := by
  unfold Frequency.parse
  simp only [reading_parse]

theorem reading_envelope (c a : Str) (d : Char) :
    (Envelope.parse (env.reading F) c a d usualFormat : Res (Envelope M)) = Envelope.parse env c a d F := by
  unfold Envelope.parse Envelope.fromHeader Envelope.extractStarting Envelope.extractFrequency
  simp only [reading_parse, reading_frequency]

theorem reading_lines (d : Char) (ls : List Str) (a : Account M) (c : Str) :
    Account.parseLines (env.reading F) d usualFormat ls a c = Account.parseLines env d F ls a c := by
  induction ls generalizing a c with
  | nil => simp only [Account.parseLines, Account.flush, reading_envelope]
  | cons l ls ih =>
    simp only [Account.parseLines, Account.flush, reading_envelope]
    split
    · simp only [ih]
    · exact ih _ _

theorem reading_account (c : Str) (d : Char) :
    (Account.parse (env.reading F) c d usualFormat : Res (Account M)) = Account.parse env c d F := by
  unfold Account.parse
  simp only [reading_lines]

theorem reading_parsable (e : Entry M) : e.asParsable (env.reading F) usualFormat = e.asParsable env F := by
  unfold Entry.asParsable
  simp only [reading_fmt]

theorem reading_rows (am : Option Str) (es : List (Entry M)) :
    Register.rows (env.reading F) usualFormat am es = Register.rows env F am es := by
  induction es with
  | nil => rfl
  | cons e es ih =>
    have : e.registerData (env.reading F) usualFormat am = e.registerData env F am := by
      unfold Entry.registerData
      simp only [reading_fmt]
    simp only [Register.rows, ih, this]

theorem reading_register (t : Bool) (es : List (Entry M)) (b e : Option Date) (am : Option Str) :
    Register.display (env.reading F) t es usualFormat b e am = Register.display env t es F b e am := by
  unfold Register.display
  simp only [reading_rows]

end Reading

/-! ### Loading -/

section Load

variable (env : Env) (F : Str) (A : APath)

/-- The state of the journal that says how its dates are written. -/
def told (st : Ledger M × World) : Ledger M × World :=
  ({ st.1 with dateFormat := F }, st.2.headed A (s%"date_format " ++ F))

/-- The same outcome, and what stays as it is. -/
def ToldOutcome (w : World) (r r' : Res (Ledger M × World)) : Prop :=
  r' = r.map (told F A) ∧ ∀ st, r = .ok st → st.2.file = w.file ∧ st.1.dateFormat = usualFormat

theorem ToldOutcome.ok {w : World} {st : Ledger M × World} (h : st.2.file = w.file) (h' : st.1.dateFormat = usualFormat) :
    ToldOutcome F A w (.ok st) (.ok (told F A st)) :=
  ⟨rfl, fun _ he => by cases he; exact ⟨h, h'⟩⟩

theorem ToldOutcome.error {w : World} (f : Fail) : ToldOutcome F A w (.error f : Res (Ledger M × World)) (.error f) :=
  ⟨rfl, fun _ he => by cases he⟩

theorem ToldOutcome.bind {w : World} {r r' : Res (Ledger M × World)} {k k' : Ledger M × World → Res (Ledger M × World)}
    (h : ToldOutcome F A w r r') (hk : ∀ st, st.2.file = w.file → st.1.dateFormat = usualFormat →
      ToldOutcome F A w (k st) (k' (told F A st))) : ToldOutcome F A w (r >>= k) (r' >>= k') := by
  obtain ⟨rfl, h2⟩ := h
  cases r with
  | error f => exact .error F A f
  | ok st => exact hk st (h2 st rfl).1 (h2 st rfl).2

theorem addEntry_told (l : Ledger M) (e : Entry M) :
    ({ l with dateFormat := F } : Ledger M).addEntry env e =
      (l.addEntry (env.reading F) e).map fun l => { l with dateFormat := F } := by
  unfold Ledger.addEntry
  show (do let _ ← Ledger.processAll env.today e (env.ord l.accounts); _) =
    (do let _ ← Ledger.processAll env.today e (env.ord l.accounts); _ : Res (Ledger M)).map _
  cases Ledger.processAll env.today e (env.ord l.accounts) with
  | error f => rfl
  | ok x =>
    show (do let accs ← Ledger.processAll env.today e l.accounts; _) =
      (do let accs ← Ledger.processAll env.today e l.accounts; _ : Res (Ledger M)).map _
    cases Ledger.processAll env.today e l.accounts with
    | error f => rfl
    | ok x => rfl

theorem addEntry_format (env : Env) (l l' : Ledger M) (e : Entry M) (h : l.addEntry env e = .ok l') :
    l'.dateFormat = l.dateFormat ∧ l'.filePath = l.filePath := by
  unfold Ledger.addEntry at h
  simp only [bind, Except.bind, pure, Except.pure] at h
  split at h
  · cases h
  · split at h
    · cases h
    · cases h; exact ⟨rfl, rfl⟩

theorem parseChunk_told (w : World) (S : Str → Prop)
    (inc inc' : Ledger M × World → Str → Res (Ledger M × World))
    (hinc : ∀ st v, S v → st.2.file = w.file → st.1.dateFormat = usualFormat → ToldOutcome F A w (inc st v) (inc' (told F A st) v))
    (st : Ledger M × World) (hf : st.2.file = w.file) (hd : st.1.dateFormat = usualFormat) (c : Str)
    (hc : FlatChunk S c) (hn : (splitWs c).head? ≠ some s%"date_format") :
    ToldOutcome F A w (Ledger.parseChunk (env.reading F) inc st c) (Ledger.parseChunk env inc' (told F A st) c) := by
  unfold Ledger.parseChunk
  split
  · exact .ok F A hf hd
  · cases hs : splitWs c with
    | nil => exact .ok F A hf hd
    | cons kw rest =>
      rw [hs] at hn
      simp only
      split
      · have : (told F A st).1.parseAccount env c =
            (st.1.parseAccount (env.reading F) c).map fun l => { l with dateFormat := F } := by
          unfold Ledger.parseAccount
          rw [hd, reading_account]
          show (do let a ← Account.parse env c st.1.decimal F; _) = _
          cases (Account.parse env c st.1.decimal F : Res (Account M)) <;> rfl
        rw [this]
        have hk : ∀ l, st.1.parseAccount (env.reading F) c = .ok l → l.dateFormat = usualFormat := by
          intro l hl
          unfold Ledger.parseAccount at hl
          simp only [bind, Except.bind, pure, Except.pure] at hl
          split at hl
          · cases hl
          · cases hl; exact hd
        cases hp : st.1.parseAccount (env.reading F) c with
        | error f => exact .error F A f
        | ok l => exact ToldOutcome.ok F A (st := (l, st.2)) hf (hk l hp)
      · split
        · cases rest with
          | nil => exact .error F A _
          | cons v _ => exact ToldOutcome.ok F A (st := ({ st.1 with currency := v }, st.2)) hf hd
        · split
          · rename_i hk; exact absurd (by rw [hk]; rfl) hn
          · split
            · rename_i hk
              subst hk
              obtain ⟨v, r', e, hv⟩ := hc _ hs
              subst e
              exact hinc st v hv hf hd
            · have : (told F A st).1.parseEntry env c =
                  (st.1.parseEntry (env.reading F) c).map fun l => { l with dateFormat := F } := by
                unfold Ledger.parseEntry
                rw [hd, reading_entry]
                show (do let a ← Entry.parse env c F st.1.decimal st.1.accountNames; _) = _
                cases (Entry.parse env c F st.1.decimal st.1.accountNames : Res (Entry M)) with
                | error f => rfl
                | ok e => exact addEntry_told env F st.1 e
              rw [this]
              have hk : ∀ l, st.1.parseEntry (env.reading F) c = .ok l → l.dateFormat = usualFormat := by
                intro l hl
                unfold Ledger.parseEntry at hl
                simp only [bind, Except.bind] at hl
                split at hl
                · cases hl
                · rw [(addEntry_format _ _ _ _ hl).1]; exact hd
              cases hp : st.1.parseEntry (env.reading F) c with
              | error f => exact .error F A f
              | ok l => exact ToldOutcome.ok F A (st := (l, st.2)) hf (hk l hp)

theorem head_snoc {c e k : Str} (h : (splitWs c).head? ≠ some k) (h' : (splitWs e).head? ≠ some k) :
    (splitWs (c ++ '\n' :: e)).head? ≠ some k := by
  rw [splitWs_append_ws _ isWs_nl]
  cases hc : splitWs c with
  | nil => exact h'
  | cons t ts => rw [hc] at h; exact h

theorem addLines_told (w : World) (S : Str → Prop)
    (inc inc' : Ledger M × World → Str → Res (Ledger M × World))
    (hinc : ∀ st v, S v → st.2.file = w.file → st.1.dateFormat = usualFormat → ToldOutcome F A w (inc st v) (inc' (told F A st) v))
    (ls : List Str) (hl : IncludeLines S ls) (hln : ∀ l ∈ ls, (splitWs (removeComments l)).head? ≠ some s%"date_format")
    (st : Ledger M × World) (hf : st.2.file = w.file) (hd : st.1.dateFormat = usualFormat) (c : Str)
    (hc : FlatChunk S c) (hn : (splitWs c).head? ≠ some s%"date_format") :
    ToldOutcome F A w (Ledger.addLinesFrom (env.reading F) inc ls st c) (Ledger.addLinesFrom env inc' ls (told F A st) c) := by
  induction ls generalizing st c with
  | nil => exact parseChunk_told env F A w S inc inc' hinc st hf hd c hc hn
  | cons x ls ih =>
    have hl' : IncludeLines S ls := fun y hy => hl y (List.mem_cons_of_mem _ hy)
    have hx := hl.effective (List.mem_cons_self (a := x) (l := ls))
    have hy := hln x (by simp)
    rw [← effective_tokens] at hy
    have ih := ih hl' fun l h => hln l (by simp [h])
    simp only [Ledger.addLinesFrom]
    cases he : removeComments (trimEnd x) with
    | nil => exact ih st hf hd c hc hn
    | cons d e =>
      rw [he] at hx hy
      simp only
      split
      · exact ih st hf hd _ (hc.snoc hx) (head_snoc hn hy)
      · exact (parseChunk_told env F A w S inc inc' hinc st hf hd c hc hn).bind F A fun st hf hd => ih st hf hd _ hx hy

/-- The line that is added, and what it does. -/
theorem addLines_head (hF : isWord F) (hnc : NoComment (s%"date_format " ++ F))
    (inc : Ledger M × World → Str → Res (Ledger M × World)) (s : Str) (hs : StartsItem (lines s)) (st : Ledger M × World) :
    Ledger.addLinesFrom env inc (lines (s%"date_format " ++ F ++ '\n' :: s)) st [] =
      Ledger.addLinesFrom env inc (lines s) ({ st.1 with dateFormat := F }, st.2) [] := by
  obtain ⟨r, c, hr⟩ : ∃ r c, F = r ++ [c] := ⟨F.dropLast, F.getLast hF.1, (List.dropLast_append_getLast hF.1).symm⟩
  have hcw : isWs c = false := hF.2 c (by simp [hr])
  have hnl : noNl (s%"date_format " ++ F) := by
    intro hm
    rcases List.mem_append.1 hm with hm | hm
    · revert hm; decide
    · have := hF.2 _ hm; revert this; decide
  have hcr : stripCr (s%"date_format " ++ F) = s%"date_format " ++ F := by
    unfold stripCr
    rw [if_neg]
    rw [hr, ← List.append_assoc, List.getLast?_concat]
    intro e
    cases e
    revert hcw; decide
  have he : removeComments (trimEnd (s%"date_format " ++ F)) = s%"date_format " ++ F := by
    rw [trimEnd_id (Or.inr ⟨s%"date_format " ++ r, c, by rw [hr, List.append_assoc], hcw⟩), removeComments_eq_rc]
    exact (noComment_iff _).1 hnc
  have ht : splitWs (s%"date_format " ++ F) = [s%"date_format", F] :=
    splitWs_words2 (a := s%"date_format") (by decide) hF
  rw [lines_line _ hnl, hcr]
  simp only [Ledger.addLinesFrom, he]
  show (do let st ← Ledger.parseChunk env inc st []; Ledger.addLinesFrom env inc (lines s) st (s%"date_format " ++ F)) = _
  rw [parseChunk_nil]
  show Ledger.addLinesFrom env inc (lines s) st (s%"date_format " ++ F) = _
  rw [addLinesFrom_start env inc _ hs]
  have hp : Ledger.parseChunk env inc st (s%"date_format " ++ F) = .ok ({ st.1 with dateFormat := F }, st.2) := by
    unfold Ledger.parseChunk
    rw [ht]
    rfl
  rw [hp]
  rfl

theorem addFromFile_told (w : World) (S : APath → Prop) (hw : UsualDates w S)
    (hF : isWord F) (hnc : NoComment (s%"date_format " ++ F))
    (hA : ∀ t, w.file A = some t → StartsItem (lines t)) (fuel : Nat)
    (st : Ledger M × World) (hf : st.2.file = w.file) (hd : st.1.dateFormat = usualFormat) (p : Str) (hp : S (resolve st.2.cwd p)) :
    ToldOutcome F A w (Ledger.addFromFile (env.reading F) fuel st p) (Ledger.addFromFile env fuel (told F A st) p) ∧
    (resolve st.2.cwd p = A → Ledger.addFromFile env fuel (st.1, st.2.headed A (s%"date_format " ++ F)) p =
      Ledger.addFromFile env fuel (told F A st) p) := by
  induction fuel generalizing st p with
  | zero => exact ⟨.error F A _, fun _ => rfl⟩
  | succ f ih =>
    simp only [Ledger.addFromFile, World.read]
    cases h1 : endsInName p with
    | false => exact ⟨.error F A _, fun _ => rfl⟩
    | true =>
      simp only [if_true, World.headed, told]
      cases h2 : w.file (resolve st.2.cwd p) with
      | none =>
        have h2' : st.2.file (resolve st.2.cwd p) = none := by rw [hf, h2]
        simp only [h2', Option.map_none, ite_self]
        exact ⟨.error F A _, fun _ => trivial⟩
      | some s =>
        have h2' : st.2.file (resolve st.2.cwd p) = some s := by rw [hf, h2]
        rw [h2']
        have main := addLines_told env F A w _ _ _ (fun st v h h' h'' => (ih st h' h'' v (h _)).1) _ (hw.closed _ _ hp h2)
          (hw.silent _ _ hp h2) (st.1, st.2.cdParent p) hf hd [] .nil (by simp [splitWs])
        by_cases e : resolve st.2.cwd p = A
        · rw [if_pos e]
          have hs := hA s (by rw [← e]; exact h2)
          simp only [Option.map_some]
          refine ⟨?_, fun _ => ?_⟩
          · rw [addLines_head env F hF hnc _ s hs]
            exact main
          · rw [addLines_head env F hF hnc _ s hs, addLines_head env F hF hnc _ s hs]
        · rw [if_neg e]
          exact ⟨main, fun h => absurd h e⟩

theorem fromFile_told (w : World) (S : APath → Prop) (hw : UsualDates w S)
    (hF : isWord F) (hnc : NoComment (s%"date_format " ++ F))
    (hA : ∀ t, w.file A = some t → StartsItem (lines t)) (fuel : Nat) (p : Str) (hp : S A) (he : resolve w.cwd p = A) :
    ToldOutcome F A w (Ledger.fromFile (env.reading F) fuel w p : Res (Ledger M × World))
      (Ledger.fromFile env fuel (w.headed A (s%"date_format " ++ F)) p) := by
  obtain ⟨h1, h2⟩ := addFromFile_told (M := M) env F A w S hw hF hnc hA fuel (Ledger.new p, w) rfl rfl p (by rw [he]; exact hp)
  unfold Ledger.fromFile
  rw [h2 he]
  exact h1

end Load

/-! ### Commands -/

section Commands

variable (env : Env) (F : Str) (A : APath)

theorem append_headed (w : World) (line p t : Str) :
    (w.headed A line).append p t = (w.append p t).map fun w => w.headed A line := by
  unfold World.append
  by_cases hc : (endsInName p && w.canAppend (resolve w.cwd p)) = true
  · have hc' : (endsInName p && (w.headed A line).canAppend (resolve (w.headed A line).cwd p)) = true := hc
    simp only [hc, hc', if_true]
    show (match (if resolve w.cwd p = A then (w.file (resolve w.cwd p)).map fun s => line ++ '\n' :: s else w.file (resolve w.cwd p)) with
      | some old => some ((w.headed A line).write (resolve w.cwd p) (old ++ t)) | none => none) = _
    cases h : w.file (resolve w.cwd p) with
    | none => simp
    | some old =>
      by_cases e : resolve w.cwd p = A
      · rw [if_pos e]
        simp only [Option.map_some, World.write, World.headed, e]
        congr 2
        funext b
        by_cases hb : b = A
        · simp [hb]
        · simp [hb]
      · rw [if_neg e]
        simp only [Option.map_some, World.write, World.headed]
        congr 2
        funext b
        by_cases hb : b = resolve w.cwd p
        · subst hb; simp [e]
        · simp [hb]
  · have hc' : ¬ (endsInName p && (w.headed A line).canAppend (resolve (w.headed A line).cwd p)) = true := hc
    simp only [hc, hc']
    rfl

theorem headed_some (w : World) (line : Str) (p : APath) : ((w.headed A line).file p).isSome = (w.file p).isSome := by
  simp only [World.headed]
  split <;> simp

theorem appendEntry_told (w : World) (l : Ledger M) (hd : l.dateFormat = usualFormat) (e : Entry M) :
    ({ l with dateFormat := F } : Ledger M).appendEntry env (w.headed A (s%"date_format " ++ F)) e =
      (((l.appendEntry (env.reading F) w e).1.headed A (s%"date_format " ++ F)),
        (l.appendEntry (env.reading F) w e).2.map fun l => { l with dateFormat := F }) := by
  unfold Ledger.appendEntry
  simp only [headed_some, append_headed, hd, reading_parsable]
  show (if (!(endsInName l.filePath && w.canAppend (resolve w.cwd l.filePath) && (w.file (resolve w.cwd l.filePath)).isSome)) = true
    then _ else _) = _
  split
  · rfl
  · cases e.asParsable env F with
    | error f => rfl
    | ok t =>
      simp only
      cases w.append l.filePath ('\n' :: t) with
      | none => rfl
      | some w1 => simp only [Option.map_some, addEntry_told]

theorem fillEnvelopes_told (w : World) (l : Ledger M) (hd : l.dateFormat = usualFormat) :
    ({ l with dateFormat := F } : Ledger M).fillEnvelopes env (w.headed A (s%"date_format " ++ F)) =
      (((l.fillEnvelopes (env.reading F) w).1.headed A (s%"date_format " ++ F)),
        (l.fillEnvelopes (env.reading F) w).2.map fun l => { l with dateFormat := F }) := by
  unfold Ledger.fillEnvelopes
  show (match Ledger.fillAll env.today (env.ord l.accounts) with | .error f => _ | .ok ps => _) =
    ((World.headed (Prod.fst (match Ledger.fillAll env.today (env.ord l.accounts) with | .error f => _ | .ok ps => _)) _ _),
      Except.map _ (Prod.snd (match Ledger.fillAll env.today (env.ord l.accounts) with | .error f => _ | .ok ps => _)))
  cases Ledger.fillAll env.today (env.ord l.accounts) with
  | error f => rfl
  | ok ps =>
    simp only
    split
    · rfl
    · exact appendEntry_told env F A w l hd _

theorem fill_format (env : Env) (w : World) (l l' : Ledger M) (h : (l.fillEnvelopes env w).2 = .ok l') :
    l'.dateFormat = l.dateFormat := by
  unfold Ledger.fillEnvelopes at h
  split at h
  · cases h
  · simp only at h
    split at h
    · cases h; rfl
    · unfold Ledger.appendEntry at h
      split at h
      · cases h
      · split at h
        · cases h
        · split at h
          · cases h
          · exact (addEntry_format _ _ _ _ h).1

theorem runSub_told (o : Outside) (f : Flags) (hf : f.sub ≠ .import_) (w : World) (l : Ledger M) (hd : l.dateFormat = usualFormat) :
    runSub env o f (w.headed A (s%"date_format " ++ F)) ({ l with dateFormat := F } : Ledger M) =
      ((runSub (env.reading F) o f w l).1.headed A (s%"date_format " ++ F), (runSub (env.reading F) o f w l).2) := by
  unfold runSub
  split
  · rfl
  · rfl
  · rw [hd, reading_register]
    show (match Register.display env o.terminal l.entries F none none none with | .ok ls => _ | .error _ => _) = _
    cases Register.display env o.terminal l.entries F none none none <;> rfl
  · rename_i h; exact absurd h hf
  · rfl
  · rfl

/-- **C147.** A journal may say, in its first line, how its dates are written: `date_format F`. Every report, the filling of
the envelopes and every failure are then what they are for the journal without that line and somebody who takes the usual
format for `F`: the same is printed, and the same is added to the same files. -/
theorem C147_like_any_other (M : Type) [Mag M] (env : Env) (o : Outside) (w : World) (S : APath → Prop) (hw : UsualDates w S)
    (F : Str) (hF : isWord F) (hnc : NoComment (s%"date_format " ++ F)) (A : APath) (hA : S A)
    (hstart : ∀ t, w.file A = some t → StartsItem (lines t)) (args : List Str)
    (hargs : ∀ f, Flags.parse args = .ok (some f) → f.sub ≠ .import_ ∧ ∀ p, f.file.or o.file = some p → resolve w.cwd p = A) :
    mainProgram M env o args (w.headed A (s%"date_format " ++ F)) =
      (((mainProgram M (env.reading F) o args w).1.headed A (s%"date_format " ++ F)),
        (mainProgram M (env.reading F) o args w).2) := by
  unfold mainProgram
  cases hfl : Flags.parse args with
  | error x => rfl
  | ok r =>
    cases r with
    | none => rfl
    | some f =>
      obtain ⟨hi, hpath⟩ := hargs f hfl
      simp only
      unfold execute
      cases hfile : f.file.or o.file with
      | none => rfl
      | some path =>
        simp only
        obtain ⟨h1, h2⟩ := fromFile_told (M := M) env F A w S hw hF hnc hstart o.fuel path hA (hpath path hfile)
        rw [h1]
        cases hl : (Ledger.fromFile (env.reading F) o.fuel w path : Res (Ledger M × World)) with
        | error x => rfl
        | ok st =>
          obtain ⟨l, w1⟩ := st
          obtain ⟨_, hd⟩ := h2 _ hl
          simp only [Except.map, told]
          split
          · exact runSub_told env F A o f hi w1 l hd
          · rw [fillEnvelopes_told env F A w1 l hd]
            have hk := fill_format (env.reading F) w1 l
            cases hx : l.fillEnvelopes (env.reading F) w1 with
            | mk w2 r2 =>
              rw [hx] at hk
              cases r2 with
              | error x => rfl
              | ok l2 => exact runSub_told env F A o f hi w2 l2 (by rw [hk l2 rfl]; exact hd)

end Commands

/-! ### From the text to the envelopes -/

theorem headed_write (w : World) (A : APath) (line text : Str) (h : w.file A = some (line ++ '\n' :: text)) :
    (w.write A text).headed A line = w := by
  obtain ⟨file, can, cwd⟩ := w
  simp only [World.headed, World.write]
  congr 1
  funext p
  by_cases hp : p = A
  · subst hp; simp only [if_true, Option.map_some]; exact h.symm
  · simp [hp]

/-- The journal, without its first line. -/
theorem without_head {env : Env} {o : Outside} {w : World} {F path text : Str} (hF : isWord F)
    (hnc : NoComment (s%"date_format " ++ F)) (hr : w.read path = some (s%"date_format " ++ F ++ '\n' :: text))
    (hstart : StartsItem (lines text))
    (hplain : ∀ l ∈ lines text, (splitWs (removeComments l)).head? ∉ [some s%"date_format", some s%"include"])
    {c : Str} {args : List Str} {fs : List Flag} (hc : c.head? ≠ some 'i') (ha : Spelled fs args) (hj : journalFor o fs = some path) :
    ∃ wu : World, wu.read path = some text ∧ wu.cwd = w.cwd ∧ wu.canAppend = w.canAppend ∧
      (∀ f, f ≠ resolve w.cwd path → wu.file f = w.file f) ∧
      (mainProgram F64 env o (c :: args) w =
        (((mainProgram F64 (env.reading F) o (c :: args) wu).1.headed (resolve w.cwd path) (s%"date_format " ++ F)),
          (mainProgram F64 (env.reading F) o (c :: args) wu).2)) ∧
      ∀ w1 : World, w1.file = wu.file → (w1.headed (resolve w.cwd path) (s%"date_format " ++ F)).file = w.file := by
  unfold World.read at hr
  split at hr
  case isFalse => cases hr
  rename_i hname
  have hw := headed_write w (resolve w.cwd path) (s%"date_format " ++ F) text hr
  refine ⟨w.write (resolve w.cwd path) text, ?_, rfl, rfl, ?_, ?_, ?_⟩
  · unfold World.read
    rw [if_pos hname]
    simp [World.write]
  · intro f hf; simp [World.write, hf]
  · conv_lhs => rw [← hw]
    refine C147_like_any_other F64 env o _ (fun p => p = resolve w.cwd path) ⟨?_, ?_⟩ F hF hnc _ rfl ?_ _ ?_
    · rintro p t rfl ht l hl e
      simp only [World.write, if_true, Option.some.injEq] at ht
      subst ht
      exact hplain l hl (by rw [e]; simp)
    · rintro p t rfl ht l hl r e
      simp only [World.write, if_true, Option.some.injEq] at ht
      subst ht
      exact absurd (by rw [e]; simp) (hplain l hl)
    · intro t ht
      simp only [World.write, if_true, Option.some.injEq] at ht
      subst ht
      exact hstart
    · intro f hf
      obtain ⟨k, fs', h1, h2, rfl⟩ := (C75_command_line_iff c args f).1 hf
      have h3 := (C75_command_line_iff c args (flagsOf k fs)).2 ⟨k, fs, h1, ha, rfl⟩
      rw [hf] at h3
      simp only [Except.ok.injEq, Option.some.injEq] at h3
      rw [h3]
      refine ⟨?_, ?_⟩
      · intro e
        have e : k = .import_ := e
        subst e
        exact hc h1
      · intro p hp
        rw [journalFor_eq, hj] at hp
        cases hp
        rfl
  · intro w1 h1
    conv_rhs => rw [← hw]
    simp only [World.headed, h1]

/-- C147 for the envelope report: a journal as in C123, with dates in the format `F` which its first line names, gives
the report that C123 says. -/
theorem C147_envelope_report (env : Env) (hord : FairOrder env.ord) (o : Outside) (w : World)
    (accs : List DeclAccount) (es : List BEntry) (F text path : Str) (hF : isWord F) (hnc : NoComment (s%"date_format " ++ F))
    (h : EnvelopeJournal (env.reading F) accs es text) (hstart : StartsItem (lines text))
    (hplain : ∀ l ∈ lines text, (splitWs (removeComments l)).head? ∉ [some s%"date_format", some s%"include"])
    (hf : EnvelopesFit env.today accs es) (hr : w.read path = some (s%"date_format " ++ F ++ '\n' :: text)) (hfuel : o.fuel ≠ 0)
    (c : Str) (args : List Str) (fs : List Flag) (hc : c.head? = some 'e') (ha : Spelled fs args) (hj : journalFor o fs = some path)
    (hn : Flag.noMove ∈ fs) (hs : SmallBooks accs es) (hd : Decided accs es) :
    ∃ w' out, mainProgram F64 env o (c :: args) w = (w', .ok out) ∧ w'.file = w.file ∧
      ∃ (shown : List DeclAccount) (blocks : List (List Str)), shown.Perm accs ∧
        shown.Pairwise (fun a b => strLt a.1 b.1 = true) ∧
        List.Forall₂ (AccountPartF env.today es) shown blocks ∧ out = blocks.flatten := by
  obtain ⟨wu, h1, _, _, _, h4, h5⟩ := without_head (env := env) (o := o) hF hnc hr hstart hplain (c := c) (by rw [hc]; decide) ha hj
  obtain ⟨w1, out, k1, k2, k3⟩ := C123_from_text_to_envelopes_in_doubles (env.reading F) hord o wu accs es text path h hf h1 hfuel
    c args fs hc ha hj hn hs hd
  rw [k1] at h4
  exact ⟨_, out, h4, h5 w1 k2, k3⟩

/-- C147 for filling the envelopes: what C134 says is added, with the day written in the format `F`. -/
theorem C147_filling (env : Env) (hord : FairOrder env.ord) (o : Outside) (w : World)
    (accs : List DeclAccount) (es : List BEntry) (F text path day : Str) (hF : isWord F) (hnc : NoComment (s%"date_format " ++ F))
    (h : EnvelopeJournal (env.reading F) accs es text) (hstart : StartsItem (lines text))
    (hplain : ∀ l ∈ lines text, (splitWs (removeComments l)).head? ∉ [some s%"date_format", some s%"include"])
    (hf : EnvelopesFit env.today accs es) (hr : w.read path = some (s%"date_format " ++ F ++ '\n' :: text)) (hfuel : o.fuel ≠ 0)
    (c : Str) (args : List Str) (fs : List Flag) (hc : c.head? = some 'e') (ha : Spelled fs args) (hj : journalFor o fs = some path)
    (hn : Flag.noMove ∉ fs) (hp : path.head? = some '/' ∨ '/' ∉ path)
    (hw : w.canAppend (resolve w.cwd path) = true)
    (hday : env.fmtDate env.today F = some day) (h0 : env.today ≠ Date.zero)
    (hcur : ∀ p ∈ accs, ∀ x ∈ p.2, ∀ y ∈ p.2, x.1.name = y.1.name → x.target.sym = y.target.sym)
    (hsb : SmallBooks accs es) (hbs : BothSides accs es) (hsf : SmallFills accs es) :
    ∃ (w' : World) (out : List Str) (served : List DeclAccount) (mss : List (List MLine)) (b : BEntry),
      mainProgram F64 env o (c :: args) w = (w', .ok out) ∧ w'.canAppend = w.canAppend ∧
      served.Perm accs ∧ List.Forall₂ (AccountFillsF env.today es) served mss ∧ b = fillOf env.today day mss.flatten ∧
      (b.lines = [] → w'.file = w.file) ∧
      (b.lines ≠ [] → w'.file (resolve w.cwd path) = some (s%"date_format " ++ F ++ '\n' :: text ++ b.addition) ∧
        ∀ f, f ≠ resolve w.cwd path → w'.file f = w.file f) := by
  obtain ⟨wu, h1, h2, h3, h3', h4, h5⟩ := without_head (env := env) (o := o) hF hnc hr hstart hplain (c := c) (by rw [hc]; decide) ha hj
  obtain ⟨w1, out, served, mss, b, k1, k2, k3, k4, k5, k6, k7⟩ := C134_what_filling_writes_in_doubles (env.reading F) hord o wu accs es
    text path day h hf h1 hfuel c args fs hc ha hj hn hp (by rw [h2, h3]; exact hw) (by rw [← hday]; exact reading_fmt env F _) h0 hcur
    hsb hbs hsf
  rw [k1] at h4
  refine ⟨_, out, served, mss, b, h4, by rw [← h3, ← k2]; rfl, k3, k4, k5, fun hb => h5 w1 (k6 hb), fun hb => ?_⟩
  obtain ⟨k8, k9⟩ := k7 hb
  rw [h2] at k8 k9
  refine ⟨?_, fun f hf => ?_⟩
  · simp only [World.headed, if_true, k8, Option.map_some]
    simp
  · simp only [World.headed, if_neg hf, k9 f hf]
    exact h3' f hf

/-! ### A journal with its dates in another format -/

/-- The entry with its date written otherwise. -/
def BEntry.redated (b : BEntry) (d : Str) : BEntry := { b with date := d }

theorem BEntry.Ok.redated {env env' : Env} {accs : List Str} {b : BEntry} {d : Str} (h : b.Ok env accs)
    (hd : isWord d ∧ d ∉ keywords ∧ env'.parseDate d s%"%Y/%m/%d" = some b.day)
    (hp : NoComment (b.redated d).plain.header ∧ noNl (b.redated d).plain.header) : (b.redated d).Ok env' accs :=
  ⟨⟨hd, h.plain.mark, h.plain.title, hp, h.plain.lines, h.plain.blanks, h.plain.oneCurrency⟩, h.moves, h.full⟩

def exDotFormat : Str := s%"%d.%m.%Y"
def exDotText : Str := s%"account bank\n  expense food due every 10th\n    amount $40\n    for shop\n    funding aggressive\n  goal trip by 23.06.2024\n    amount $100\n    funding conservative\naccount shop\naccount pay\n\n01.06.2024 * salary\n bank $100\n pay -100 $\n envelope bank food $30.50\n12.06.2024 * shopping\n shop 12.25$\n bank\n13.06.2024 * save\n bank $5\n pay $-5\n envelope bank food $8\n"
def exDotTrip : MeantDecl Rat := ({ exTripGoal.1 with due := .byDate s%"23.06.2024" }, exTripGoal.2)
def exDotAccounts : List DeclAccount := [(s%"bank", [exFoodFilled, exDotTrip]), (s%"shop", []), (s%"pay", [])]
def exDotEntries : List BEntry := [exSalaryIn.redated s%"01.06.2024", exShopping.redated s%"12.06.2024", exSaving.redated s%"13.06.2024"]
def exDotDisk : World := disk [("j", String.ofList (s%"date_format " ++ exDotFormat ++ '\n' :: exDotText))]

theorem exDotText_ok : EnvelopeJournal ((stdEnv june15).reading exDotFormat) exDotAccounts exDotEntries exDotText := by
  have h := exTripText_ok
  refine ⟨.of (by decide +kernel), by decide, by decide, ?_, ?_, ?_⟩
  · intro p hp x hx
    simp only [exDotAccounts, List.mem_cons, List.not_mem_nil, or_false] at hp
    rcases hp with rfl | rfl | rfl
    · simp only [List.mem_cons, List.not_mem_nil, or_false] at hx
      rcases hx with rfl | rfl
      · have hx' := exFoodFilled_ok
        refine ⟨⟨by decide, by decide, ⟨by decide, by decide, by decide, by decide, by decide⟩, ?_, .none, hx'.ok.props⟩, hx'.indented, hx'.amounts⟩
        exact .due _ _ (.monthly s%"10th" 10 ⟨by decide, s%"th", by decide, by decide, by decide⟩) (by decide)
      · have hx' := exTripGoal_ok
        refine ⟨⟨by decide, by decide, ⟨by decide, by decide, by decide, by decide, by decide⟩, ?_, .none, hx'.ok.props⟩, hx'.indented, hx'.amounts⟩
        exact .byDate _ _ (.once s%"23.06.2024" _ (by decide) (by decide +kernel))
    · cases hx
    · cases hx
  · intro p hp k
    simp only [exDotAccounts, List.mem_cons, List.not_mem_nil, or_false] at hp
    rcases hp with rfl | rfl | rfl <;> cases k <;> decide
  · intro e he
    simp only [exDotEntries, List.mem_cons, List.not_mem_nil, or_false] at he
    rcases he with rfl | rfl | rfl
    · exact (h.entries exSalaryIn (by simp)).redated (by decide +kernel) (by decide +kernel)
    · exact (h.entries exShopping (by simp)).redated (by decide +kernel) (by decide +kernel)
    · exact (h.entries exSaving (by simp)).redated (by decide +kernel) (by decide +kernel)

theorem exDot_schedule : ∀ p ∈ exDotAccounts, ∀ x ∈ p.2, x.2.1.Safe ∧ x.2.1.Inner := by
  intro p hp x hx
  simp only [exDotAccounts, List.mem_cons, List.not_mem_nil, or_false] at hp
  rcases hp with rfl | rfl | rfl
  · simp only [List.mem_cons, List.not_mem_nil, or_false] at hx
    rcases hx with rfl | rfl
    · exact exTrip_fits.schedule (s%"bank", [exFoodFilled, exTripGoal]) (by simp [exTripAccounts]) exFoodFilled (by simp)
    · exact exTrip_fits.schedule (s%"bank", [exFoodFilled, exTripGoal]) (by simp [exTripAccounts]) exTripGoal (by simp)
  · cases hx
  · cases hx

/-- The journal of C134 with its dates written as in Germany meets the conditions of both theorems. -/
example : isWord exDotFormat ∧ NoComment (s%"date_format " ++ exDotFormat) ∧ StartsItem (lines exDotText) ∧
    (∀ l ∈ lines exDotText, (splitWs (removeComments l)).head? ∉ [some s%"date_format", some s%"include"]) ∧
    EnvelopesFit june15 exDotAccounts exDotEntries ∧
    exDotDisk.read s%"j" = some (s%"date_format " ++ exDotFormat ++ '\n' :: exDotText) ∧
    SmallBooks exDotAccounts exDotEntries ∧ Decided exDotAccounts exDotEntries ∧
    BothSides exDotAccounts exDotEntries ∧ SmallFills exDotAccounts exDotEntries ∧
    (stdEnv june15).fmtDate june15 exDotFormat = some s%"15.06.2024" ∧ june15 ≠ Date.zero := by
  refine ⟨by decide, by decide, by decide +kernel, by decide +kernel,
    ⟨exTrip_fits.today, exDot_schedule, by decide +kernel, by decide +kernel⟩, by decide +kernel,
    small_books_of_all (by decide +kernel) (by decide +kernel) (by decide +kernel) (by decide +kernel),
    by unfold Decided; decide +kernel, by unfold BothSides; decide +kernel, small_fills_of_all (by decide +kernel), by decide +kernel,
    by decide⟩

/-- What is added has its date in the format of the journal. -/
example : (mainProgram F64 (stdEnv june15) exOutside [s%"envelopes", s%"-f", s%"j"] exDotDisk).1.file [s%"h", s%"j"] =
    some (s%"date_format %d.%m.%Y\n" ++ exDotText ++
      s%"\n15.06.2024 ~ move to envelopes // automatically generated by silverfox\n    envelope bank trip                                 $ 12.5\n    envelope bank food                                 $ 32\n") := by
  decide +kernel

def exBlankFormat : String := "date_format %d. %m. %Y\naccount a\naccount b\n\n01. 06. 2024 * x\n a $1\n b $-1\n"

/-- C147. A format with blanks in it is cut off at the first blank, so that a journal that names one has no readable date at all,
although the dates are written just as the format says. -/
theorem C147_formats_with_blanks :
    (stdEnv june15).parseDate s%"01. 06. 2024" s%"%d. %m. %Y" = some ⟨2024, 6, 1, by decide⟩ ∧
    ¬ ∃ out, (mainProgram F64 (stdEnv june15) exOutside [s%"balance", s%"-f", s%"j"] (disk [("j", exBlankFormat)])).2 = .ok out := by
  decide +kernel

end Silverfox
