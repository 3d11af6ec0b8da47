import Verif.Props.DayAfterDay
import Verif.Props.FillDoubles

/-
C135: filling the envelopes day after day, with doubles.
-/

namespace Silverfox

set_option linter.unusedSectionVars false

/-! ### Specification -/

/-- Specification: the conditions of C134 on the entries of a journal. -/
structure SmallJournal (accs : List DeclAccount) (es : List BEntry) : Prop where
  books : SmallBooks accs es
  sides : BothSides accs es
  fills : SmallFills accs es

/-- Specification: the same line when it is read again: with the very same amount. -/
def ReadsSame (m m' : MLine) : Prop := Reread m m' ∧ m'.value = m.value

/-- Specification: what filling the envelopes on a day adds if the journal has the entries `es` (see C134): the text, and
the entries that the journal has then. -/
def FilledOnF (accs : List DeclAccount) (m : Morning) (es after : List BEntry) (text : Str) : Prop :=
  ∃ served mss, served.Perm accs ∧ List.Forall₂ (AccountFillsF m.today es) served mss ∧
    ((mss.flatten = [] ∧ after = es ∧ text = []) ∨
      (mss.flatten ≠ [] ∧ text = (fillOf m.today m.day mss.flatten).addition ∧
        ∃ ms, List.Forall₂ ReadsSame mss.flatten ms ∧ after = es ++ [refill m.today m.day ms]))

/-- Specification: day after day: the entries and the text of the journal in the beginning, and in the end. -/
inductive DiaryF (accs : List DeclAccount) : List Morning → List BEntry → Str → List BEntry → Str → Prop
  | nil (es text) : DiaryF accs [] es text es text
  | cons {m ms es text after filled es' text'} : FilledOnF accs m (es ++ m.news) after filled →
      DiaryF accs ms after (text ++ m.added ++ filled) es' text' →
      DiaryF accs (m :: ms) es text es' text'

/-! ### Lines that are read again -/

theorem same_cents {a b : Rat} (ha : ∃ i : Int, a = i / 100000000) (hb : ∃ i : Int, b = i / 100000000)
    (h : |a - b| ≤ 1 / 200000000) : a = b := by
  obtain ⟨i, rfl⟩ := ha
  obtain ⟨j, rfl⟩ := hb
  rw [← sub_div, abs_div, abs_of_pos (show (0 : Rat) < 100000000 by norm_num), ← Int.cast_sub, ← Int.cast_abs,
    div_le_iff₀ (by norm_num)] at h
  have : |i - j| < 1 := by
    have : ((|i - j| : Int) : Rat) < 1 := by linarith
    exact_mod_cast this
  have := Int.abs_lt_one_iff.1 this
  rw [show i = j by omega]

theorem same_line {env : Env} {k : Str} (hk : isWord k ∧ NoComment k) {x : MeantDecl Rat} (hx : DeclOk env x)
    {today : Date} {es : List BEntry} {f : Rat} {m : MLine} (h : FillLine today k es (x, f) (some m)) :
    ∃ m', ReadsSame m m' ∧ m'.account = k ∧ m'.envelope = x.1.name ∧ m'.value.2 = x.target.sym := by
  obtain ⟨_, t, u, r, rfl, h2, h3, h4, _⟩ := h
  obtain ⟨m', hm'⟩ := reread_line hk hx (f := r) (t := t) ⟨r, u, h2, h3, h4, by simp⟩
  refine ⟨m', ⟨hm', Prod.ext ?_ hm'.currency⟩, hm'.account, hm'.envelope, hm'.currency⟩
  exact same_cents hm'.digits h4 hm'.near

theorem same_lines {env : Env} {today : Date} {es : List BEntry} {served : List DeclAccount} {mss : List (List MLine)}
    (h : List.Forall₂ (AccountFillsF today es) served mss) (hn : ∀ p ∈ served, isWord p.1 ∧ NoComment p.1)
    (hd : ∀ p ∈ served, ∀ x ∈ p.2, DeclOk env x) :
    ∃ ms, List.Forall₂ ReadsSame mss.flatten ms ∧ ∀ m ∈ ms, ∃ p ∈ served, ∃ x ∈ p.2, m.account = p.1 ∧
      m.envelope = x.1.name ∧ m.value.2 = x.target.sym := by
  induction h with
  | nil => exact ⟨[], .nil, by simp⟩
  | @cons p ms0 ps mss h1 _ ih =>
    obtain ⟨ms2, g1, g2⟩ := ih (fun q hq => hn q (by simp [hq])) fun q hq => hd q (by simp [hq])
    obtain ⟨fs, os, _, h3, rfl⟩ := h1
    have hmem : ∀ xf ∈ (serving p.2).zip fs, xf.1 ∈ p.2 := by
      intro xf hxf
      have hx := (List.of_mem_zip hxf).1
      unfold serving at hx
      rcases List.mem_append.1 hx with hx | hx <;> exact (mem_ofKind (List.mem_reverse.1 hx)).1
    have key : ∀ (xfs : List (MeantDecl Rat × Rat)) (os : List (Option MLine)), (∀ xf ∈ xfs, xf.1 ∈ p.2) →
        List.Forall₂ (FillLine today p.1 es) xfs os →
        ∃ ms', List.Forall₂ ReadsSame (os.filterMap id) ms' ∧ ∀ m ∈ ms', ∃ x ∈ p.2, m.account = p.1 ∧
          m.envelope = x.1.name ∧ m.value.2 = x.target.sym := by
      intro xfs os hx h
      induction h with
      | nil => exact ⟨[], .nil, by simp⟩
      | @cons xf o xfs os h1 _ ih =>
        obtain ⟨ms', k1, k2⟩ := ih fun y hy => hx y (by simp [hy])
        cases o with
        | none => exact ⟨ms', k1, k2⟩
        | some m =>
          obtain ⟨m', hm', q1, q2, q3⟩ := same_line (hn p (by simp)) (hd p (by simp) xf.1 (hx xf (by simp))) h1
          refine ⟨m' :: ms', .cons hm' k1, ?_⟩
          intro y hy
          rcases List.mem_cons.1 hy with rfl | hy
          · exact ⟨xf.1, hx xf (by simp), q1, q2, q3⟩
          · exact k2 y hy
    obtain ⟨ms1, f1, f2⟩ := key _ _ hmem h3
    refine ⟨ms1 ++ ms2, ?_, ?_⟩
    · rw [List.flatten_cons]
      exact List.rel_append f1 g1
    · intro m hm
      rcases List.mem_append.1 hm with hm | hm
      · obtain ⟨x, hx, k⟩ := f2 m hm
        exact ⟨p, by simp, x, hx, k⟩
      · obtain ⟨q, hq, k⟩ := g2 m hm
        exact ⟨q, by simp [hq], k⟩

/-! ### C135 -/

/-- C135. A journal of accounts with envelopes and entries, and days on each of which entries may be written at its end
and then `silverfox envelopes` is run, with doubles, as the program has them. As long as the journal meets the conditions
of C134, every run succeeds, and does what C134 says for the entries that the journal has on that day: the first ones,
the news, and what the program has added on the days before, with exactly the amounts that it has written. No other
file changes. After these days the journal is again one of these accounts and all these entries. -/
theorem C135_day_after_day_in_doubles (env : Env) (hord : FairOrder env.ord) (o : Outside) (w : World)
    (accs : List DeclAccount) (es : List BEntry) (text path : Str) (h : EnvelopeJournal env accs es text)
    (hf : EnvelopesFit env.today accs es) (hr : w.read path = some text) (hfuel : o.fuel ≠ 0) (c : Str) (args : List Str)
    (fs : List Flag) (hc : c.head? = some 'e') (ha : Spelled fs args) (hj : journalFor o fs = some path)
    (hn : Flag.noMove ∉ fs) (hp : path.head? = some '/' ∨ '/' ∉ path)
    (hw : w.canAppend (resolve w.cwd path) = true)
    (hcur : ∀ p ∈ accs, ∀ x ∈ p.2, ∀ y ∈ p.2, x.1.name = y.1.name → x.target.sym = y.target.sym)
    (days : List Morning) (hd : ∀ m ∈ days, m.Ok env accs) :
    ∃ (n : Nat) (w' : World) (outs : List (List Str)) (es' : List BEntry) (text' : Str),
      eachMorning F64 env o (c :: args) (resolve w.cwd path) (days.take n) w = (w', outs.map .ok) ∧
      DiaryF accs (days.take n) es text es' text' ∧ w'.file (resolve w.cwd path) = some text' ∧
      (∀ f, f ≠ resolve w.cwd path → w'.file f = w.file f) ∧ EnvelopeJournal env accs es' text' ∧
      (n = days.length ∨ ∃ m, days[n]? = some m ∧ ¬ SmallJournal accs (es' ++ m.news)) := by
  have hend : endsInName path = true := by
    unfold World.read at hr
    split at hr
    · assumption
    · cases hr
  replace hr : w.file (resolve w.cwd path) = some text := by
    unfold World.read at hr
    rw [hend] at hr
    exact hr
  obtain ⟨d0, hd0⟩ : ∃ d0, d0 = env.today := ⟨_, rfl⟩
  rw [← hd0] at hf
  clear hd0
  induction days generalizing w es text d0 with
  | nil => exact ⟨0, w, [], es, text, rfl, .nil _ _, hr, fun _ _ => rfl, h, Or.inl rfl⟩
  | cons m ms ih =>
    by_cases hsmall : SmallJournal accs (es ++ m.news)
    swap
    · exact ⟨0, w, [], es, text, rfl, .nil _ _, hr, fun _ _ => rfl, h, Or.inr ⟨m, rfl, hsmall⟩⟩
    have hm := hd m (by simp)
    obtain ⟨a, hadef⟩ : ∃ a, a = resolve w.cwd path := ⟨_, rfl⟩
    obtain ⟨w1, hw1⟩ : ∃ w1, w1 = w.write a ((w.file a).getD [] ++ m.added) := ⟨_, rfl⟩
    have h1 : EnvelopeJournal env accs (es ++ m.news) (text ++ m.added) := by
      rcases hm.written with ⟨e1, e2⟩ | ⟨t, e1, e2⟩
      · rw [e1, e2, List.append_nil, List.append_nil]; exact h
      · rw [e1]; exact h.append e2 hm.entries
    have hf1 : EnvelopesFit m.today accs (es ++ m.news) := hf.append hm.fits
    have hcwd : w1.cwd = w.cwd := by rw [hw1]; rfl
    have hcan : w1.canAppend = w.canAppend := by rw [hw1]; rfl
    have hr1 : w1.file (resolve w1.cwd path) = some (text ++ m.added) := by
      rw [hcwd, ← hadef, hw1]
      show (if a = a then _ else _) = _
      rw [if_pos rfl, hadef, hr]
      rfl
    have hr1' : w1.read path = some (text ++ m.added) := by
      unfold World.read
      rw [hend]
      exact hr1
    have hoth : ∀ f, f ≠ a → w1.file f = w.file f := by
      intro f hne
      rw [hw1]
      show (if f = a then _ else _) = _
      rw [if_neg hne]
    obtain ⟨w2, out, served, mss, b, k1, k2, k3, k4, rfl, k6, k7⟩ := C134_what_filling_writes_in_doubles (env.on m.today) hord o
      w1 accs (es ++ m.news) (text ++ m.added) path m.day (h1.on m.today) hf1 hr1' hfuel c args fs hc ha hj hn hp
      (by rw [hcan, hcwd]; exact hw) hm.date.1 hm.notZero hcur hsmall.books hsmall.sides hsmall.fills
    have hlines : (fillOf m.today m.day mss.flatten).lines = [] ↔ mss.flatten = [] := by
      show mss.flatten.map BLine.move = [] ↔ _
      exact List.map_eq_nil_iff
    have hnext : ∃ after filled, FilledOnF accs m (es ++ m.news) after filled ∧
        w2.file a = some (text ++ m.added ++ filled) ∧ (∀ f, f ≠ a → w2.file f = w.file f) ∧
        EnvelopeJournal env accs after (text ++ m.added ++ filled) ∧ EnvelopesFit m.today accs after := by
      by_cases hem : mss.flatten = []
      · have h6 := k6 (hlines.2 hem)
        refine ⟨es ++ m.news, [], ⟨served, mss, k3, k4, Or.inl ⟨hem, rfl, rfl⟩⟩, ?_, ?_, ?_, hf1⟩
        · rw [h6, List.append_nil, ← hr1, hcwd, hadef]
        · intro f hne
          rw [h6, hoth f hne]
        · rw [List.append_nil]; exact h1
      · have hb := fun c => hem (hlines.1 c)
        obtain ⟨h7, h8⟩ := k7 hb
        obtain ⟨ms', r1, r2⟩ := same_lines (env := env) k4 (fun p hp => h.names p (k3.mem_iff.1 hp))
          fun p hp => h.envelopes p (k3.mem_iff.1 hp)
        have hne : ms' ≠ [] := by
          rintro rfl
          cases hx : mss.flatten with
          | nil => exact hem hx
          | cons y ys => rw [hx] at r1; cases r1
        obtain ⟨t, t1, t2⟩ := addition_lines hm (r1.imp fun _ _ g => g.1)
        have hok : ∀ x ∈ ms', x.Ok := by
          intro x hx
          obtain ⟨y, _, hy⟩ := forall₂_mem_right r1 hx
          exact hy.1.ok
        refine ⟨es ++ m.news ++ [refill m.today m.day ms'], (fillOf m.today m.day mss.flatten).addition,
          ⟨served, mss, k3, k4, Or.inr ⟨hem, rfl, ⟨ms', r1, rfl⟩⟩⟩, ?_, ?_, ?_, ?_⟩
        · rw [hadef, ← hcwd]; exact h7
        · intro f hne
          rw [h8 f (by rw [hcwd, ← hadef]; exact hne), hoth f hne]
        · rw [t1]
          exact h1.append t2 fun b hb => by
            rw [List.mem_singleton] at hb
            subst hb
            exact refill_ok hm hok
        · exact hf1.append (refill_fits h.once hm.fits hne (fun y hy => by
            obtain ⟨p, hp, x, hx, q⟩ := r2 y hy
            exact ⟨p, k3.mem_iff.1 hp, x, hx, q⟩) hcur)
    obtain ⟨after, filled, n1, n2, n3, n4, n5⟩ := hnext
    obtain ⟨n, w', outs, es', text', g1, g2, g3, g4, g5, g6⟩ := ih { w2 with cwd := w.cwd } after (text ++ m.added ++ filled) n4
      (by show w2.canAppend (resolve w.cwd path) = true; rw [k2, hcan]; exact hw)
      (fun x hx => hd x (by simp [hx])) (by show w2.file (resolve w.cwd path) = _; rw [← hadef]; exact n2) m.today n5
    refine ⟨n + 1, w', out :: outs, es', text', ?_, .cons n1 g2, g3, ?_, g5, ?_⟩
    · have g1 : eachMorning F64 env o (c :: args) (resolve w.cwd path) (ms.take n) { w2 with cwd := w.cwd } = (w', outs.map .ok) := g1
      rw [← hadef] at g1 ⊢
      rw [List.take_succ_cons]
      unfold eachMorning
      rw [← hw1, k1]
      simp only [g1]
      rfl
    · intro f hne
      rw [g4 f hne]
      exact n3 f (by rw [hadef]; exact hne)
    · rcases g6 with g6 | ⟨x, g6, g7⟩
      · left; rw [g6]; rfl
      · right; exact ⟨x, by simpa using g6, g7⟩

/-! ### Days -/

/-- The text of the lines. -/
def entryText (ls : List BLine) : Str := ls.flatMap fun l => l.text ++ ['\n']

/-- What is added on the first of two days, as it is read on the second. -/
def exFirstFill : BEntry := refill june15 s%"2024/06/15"
  [⟨s%"    ", s%" ", s%"bank", s%" ", s%"trip", s%"                                 ", s%"$ 12.5", (25 / 2, some s%"$")⟩,
   ⟨s%"    ", s%" ", s%"bank", s%" ", s%"food", s%"                                 ", s%"$ 32", (32, some s%"$")⟩]

/-- The journal of C122 meets the conditions on both days of C133. -/
example : SmallJournal exTripAccounts [exSalaryIn, exShopping, exSaving] ∧
    SmallJournal exTripAccounts ([exSalaryIn, exShopping, exSaving, exFirstFill] ++ [exGift]) :=
  ⟨⟨small_books_of_all (by decide +kernel) (by decide +kernel) (by decide +kernel) (by decide +kernel),
    by unfold BothSides; decide +kernel, small_fills_of_all (by decide +kernel)⟩,
  ⟨small_books_of_all (by decide +kernel) (by decide +kernel) (by decide +kernel) (by decide +kernel),
    by unfold BothSides; decide +kernel, small_fills_of_all (by decide +kernel)⟩⟩

/-- With doubles the same is written on the two days as with exact numbers. -/
example : (eachMorning F64 (stdEnv june15) exOutside [s%"envelopes", s%"-f", s%"j"] [s%"h", s%"j"] exTwoDays
      (disk [("j", String.ofList exTripText)])).1.file [s%"h", s%"j"] = some (exTripText ++
    s%"\n2024/06/15 ~ move to envelopes // automatically generated by silverfox\n" ++
    entryText exFirstFill.lines ++
    s%"\n\n2024/06/16 * gift // from a friend\n bank $10.01\n pay" ++
    s%"\n2024/06/16 ~ move to envelopes // automatically generated by silverfox\n    envelope bank trip                                 $ 12.5\n") := by
  decide +kernel

def exThirds : String := "account bank\n  goal trip by 2024/06/18\n    amount $10\n    funding conservative\naccount pay\n\n2024/06/01 * x\n bank $100\n pay $-100"

def exThreeDays : List Morning := [⟨june15, s%"2024/06/15", [], []⟩, ⟨june16, s%"2024/06/16", [], []⟩,
  ⟨⟨2024, 6, 17, by decide⟩, s%"2024/06/17", [], []⟩]

/-- Three days for ten dollars: what has been written is taken into account, and ten dollars are there in the end. -/
example : (eachMorning F64 (stdEnv june15) exOutside [s%"envelopes", s%"-f", s%"j"] [s%"h", s%"j"] exThreeDays
      (disk [("j", exThirds)])).1.file [s%"h", s%"j"] = some (exThirds.toList ++
    s%"\n2024/06/15 ~ move to envelopes // automatically generated by silverfox\n    envelope bank trip                                 $ 3.33333333\n" ++
    s%"\n2024/06/16 ~ move to envelopes // automatically generated by silverfox\n    envelope bank trip                                 $ 3.33333334\n" ++
    s%"\n2024/06/17 ~ move to envelopes // automatically generated by silverfox\n    envelope bank trip                                 $ 3.33333333\n") := by
  decide +kernel

/-- C135. What is printed while the envelopes are filled may differ from what is printed right afterwards: on the second
day half of $6.66666667 is moved, and $6.666666665 are printed as $6.66666666; written is $3.33333334, and that is
$6.66666667 in all when it is read. -/
theorem C135_the_file_may_say_more :
    let days := exThreeDays.take 2
    let r := eachMorning F64 (stdEnv june15) exOutside [s%"envelopes", s%"-f", s%"j"] [s%"h", s%"j"] days (disk [("j", exThirds)])
    (∃ out, r.2[1]? = some (.ok out) ∧ out[6]? =
      some s%"      next (on 2024-06-18)            $ 6.66666666 / $ 10 |══════════════════════════              |") ∧
    ∃ out, (mainProgram F64 (stdEnv june16) exOutside [s%"envelopes", s%"-f", s%"j", s%"-n"] r.1).2 = .ok out ∧ out[6]? =
      some s%"      next (on 2024-06-18)            $ 6.66666667 / $ 10 |══════════════════════════              |" := by
  constructor
  · refine ⟨[s%"bank", s%"  available", s%"    $ 93.33333334", s%"  goals", s%"    trip",
      s%"      now                                      $ 0 / $ 10 |                                        |",
      s%"      next (on 2024-06-18)            $ 6.66666666 / $ 10 |══════════════════════════              |", []], ?_, by rfl⟩
    decide +kernel
  · decide +kernel

end Silverfox
