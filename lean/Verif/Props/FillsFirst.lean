import Verif.Props.DaysDoubles
import Verif.Props.StatementEnvelopes

/-
C141: every command fills the envelopes first, and all of them in the same way; a statement is added after that.
-/

namespace Silverfox

set_option linter.unusedSectionVars false

/-! ### The journal after the envelopes have been filled -/

theorem filled_after {env : Env} {accs : List DeclAccount} {es : List BEntry} {text : Str}
    (h : EnvelopeJournal env accs es text) {m : Morning} (hm : m.Ok env accs) (hf : EnvelopesFit m.today accs es)
    (hcur : ∀ p ∈ accs, ∀ x ∈ p.2, ∀ y ∈ p.2, x.1.name = y.1.name → x.target.sym = y.target.sym)
    {served : List DeclAccount} {mss : List (List MLine)} (k3 : served.Perm accs)
    (k4 : List.Forall₂ (AccountFillsF m.today es) served mss) :
    ∃ after filled, FilledOnF accs m es after filled ∧ EnvelopeJournal env accs after (text ++ filled) ∧
      EnvelopesFit m.today accs after ∧ ((mss.flatten = [] ∧ filled = [] ∧ after = es) ∨
        (mss.flatten ≠ [] ∧ filled = (fillOf m.today m.day mss.flatten).addition ∧
          ∃ ms, List.Forall₂ ReadsSame mss.flatten ms ∧ after = es ++ [refill m.today m.day ms])) := by
  by_cases hem : mss.flatten = []
  · exact ⟨es, [], ⟨served, mss, k3, k4, Or.inl ⟨hem, rfl, rfl⟩⟩, by simpa using h, hf, Or.inl ⟨hem, rfl, rfl⟩⟩
  · obtain ⟨ms', r1, r2⟩ := same_lines (env := env) k4 (fun p hp => h.names p (k3.mem_iff.1 hp))
      fun p hp => h.envelopes p (k3.mem_iff.1 hp)
    have hne : ms' ≠ [] := by
      rintro rfl
      cases hx : mss.flatten with
      | nil => exact hem hx
      | cons y ys => rw [hx] at r1; cases r1
    obtain ⟨t, t1, t2⟩ := addition_lines hm (r1.imp fun _ _ g => g.1)
    have hok : ∀ x ∈ ms', x.Ok := by
      intro x hx
      obtain ⟨y, _, hy⟩ := forall₂_mem_right r1 hx
      exact hy.1.ok
    refine ⟨es ++ [refill m.today m.day ms'], (fillOf m.today m.day mss.flatten).addition,
      ⟨served, mss, k3, k4, Or.inr ⟨hem, rfl, ⟨ms', r1, rfl⟩⟩⟩, ?_, ?_, Or.inr ⟨hem, rfl, ms', r1, rfl⟩⟩
    · rw [t1]
      exact h.append t2 fun b hb => by
        rw [List.mem_singleton] at hb
        subst hb
        exact refill_ok hm hok
    · exact hf.append (refill_fits h.once hm.fits hne (fun y hy => by
        obtain ⟨p, hp, x, hx, q⟩ := r2 y hy
        exact ⟨p, k3.mem_iff.1 hp, x, hx, q⟩) hcur)

/-! ### A statement, after that -/

/-- A ledger whose envelopes have been read. -/
structure LedgerRead (accs : List DeclAccount) (l : Ledger F64) : Prop where
  decimal : l.decimal = '.'
  dateFormat : l.dateFormat = s%"%Y/%m/%d"
  accounts : List.Forall₂ (fun p q => q.1 = p.1 ∧ AccountRead p q.2) accs l.accounts

theorem LedgerRead.names {accs : List DeclAccount} {l : Ledger F64} (h : LedgerRead accs l) :
    l.accounts.map Prod.fst = accs.map Prod.fst := by
  obtain ⟨_, _, h⟩ := h
  generalize l.accounts = as at h
  induction h with
  | nil => rfl
  | cons h1 _ ih => rw [List.map_cons, List.map_cons, ih, h1.1]

theorem processAll_kept {env : Env} {accs : List DeclAccount} {b : BEntry} (hf : EnvelopesFit env.today accs [b])
    (hb : b.Ok env (accs.map Prod.fst)) {y : Entry F64} (hx : BEntryOf b y)
    {ps : List DeclAccount} (hps : ∀ p ∈ ps, p ∈ accs) {as : List (Str × Account F64)}
    (h : List.Forall₂ (fun p q => q.1 = p.1 ∧ AccountRead p q.2) ps as) :
    ∃ as', Ledger.processAll env.today y as = .ok as' ∧
      List.Forall₂ (fun p q => q.1 = p.1 ∧ AccountRead p q.2) ps as' := by
  induction h with
  | nil => exact ⟨[], rfl, .nil⟩
  | @cons p q _ _ h1 _ ih =>
    have hst : ∀ x ∈ p.2, ∀ e : Envelope F64, ReadEnvelope p.1 x e → ∃ e', e.processEntry env.today y = .ok e' ∧
        ReadEnvelope p.1 x e' := by
      intro x hxp e he
      obtain ⟨e', k1, k2, _⟩ := processEntry_read hb hx he (hf.last (hps p (by simp)) hxp)
        (hf.named p (hps p (by simp)) x hxp b (by simp)) (hf.spent p (hps p (by simp)) x hxp b (by simp))
      exact ⟨e', k1, k2⟩
    obtain ⟨e1, k1, k2⟩ := fill_envelopesF h1.2.expenses fun x hx => hst x (mem_ofKind hx).1
    obtain ⟨e2, k3, k4⟩ := fill_envelopesF h1.2.goals fun x hx => hst x (mem_ofKind hx).1
    obtain ⟨r, hr⟩ := processReal_total q.2.name y y.postings (fun q hq hn => by
      obtain ⟨_, c, _, hc⟩ := hb.blankAmount hx ⟨q, hq, hn⟩
      exact ⟨_, hc⟩) q.2.real
    have h2 : q.2.processEntry env.today y = .ok { q.2 with expenses := e1, goals := e2, real := r } := by
      simp only [Account.processEntry, k1, k3, hr, bind, Except.bind]; rfl
    obtain ⟨as', h4, h5⟩ := ih fun p hp => hps p (by simp [hp])
    exact ⟨(q.1, { q.2 with expenses := e1, goals := e2, real := r }) :: as', by
      simp only [Ledger.processAll, h2, h4, bind, Except.bind]; rfl, .cons ⟨h1.1, k2, k4⟩ h5⟩

theorem rows_imported_after {env : Env} (hord : FairOrder env.ord) {accs : List DeclAccount} {cols known : List Str}
    {fmt a b rules : Str} {dec : Char} (h : StatementRules (accs.map Prod.fst) cols fmt dec a b rules)
    (hn : ∀ k ∈ accs.map Prod.fst, k ∈ known) (path : Str) (hpath : endsInName path = true) (rows : List BankRow)
    (records : List (List Str)) (hin : List.Forall₂ (fun r record => BankRow.In dec cols record r) rows records)
    (hr : ∀ r ∈ rows, r.Ok env fmt) (hfit : ∀ r ∈ rows, EnvelopesFit env.today accs [r.byHand a b]) (w : World) (l : Ledger F64)
    (hl : LedgerRead accs l) (hlp : l.filePath = path)
    (happ : w.canAppend (resolve w.cwd path) = true) (es : List BEntry) (text : Str)
    (hfile : w.file (resolve w.cwd path) = some text) (hj : EnvelopeJournal env accs es text) :
    ∃ w1 l1 bs text', Ledger.importLoop env (.mk (statementVals cols fmt dec a b) .nil) known records w l = (w1, .ok l1) ∧
      w1.cwd = w.cwd ∧ w1.file (resolve w.cwd path) = some text' ∧
      (∀ p, p ≠ resolve w.cwd path → w1.file p = w.file p) ∧
      List.Forall₂ BEntry.Alike bs (rows.map (BankRow.byHand a b)) ∧
      EnvelopeJournal env accs (es ++ bs) text' ∧ text <+: text' := by
  induction hin generalizing w l es text with
  | nil => exact ⟨w, l, [], text, rfl, rfl, hfile, fun _ _ => rfl, .nil, by simpa using hj, List.prefix_refl _⟩
  | @cons r record rows records h1 _ ih =>
    obtain ⟨x, pe, x1, x2, x3, x4, x5, _, me, m1, m2, m3⟩ := row_entry hord h hj.account_lines hn h1 (hr r (by simp))
    have hfit1 : EnvelopesFit env.today accs [me.asB] := alike_fit (.cons m2.alike .nil) (hfit r (by simp))
    obtain ⟨as', p1, p2⟩ := processAll_kept hfit1 (asB_ok m1) (asB_of m3) (fun _ h => h) hl.accounts
    rw [processAll_described] at p1
    have hadd := (addEntry_iff env hord l _ x).2 ⟨as', p1, rfl⟩
    generalize hl1 : ({ l with accounts := as', entries := stableSort (fun a b => Date.lt a.date b.date) (l.entries ++ [x]) } :
      Ledger F64) = l1 at hadd
    have hpl : LedgerRead accs l1 ∧ l1.filePath = path := by
      subst hl1
      exact ⟨⟨hl.decimal, hl.dateFormat, p2⟩, hlp⟩
    have hap : l.appendEntry env w x = (w.write (resolve w.cwd path) (text ++ '\n' :: pe.full), .ok l1) := by
      unfold Ledger.appendEntry
      rw [hlp, hl.dateFormat, x2, hpath, happ, hfile]
      simp only [World.append, hpath, happ, hfile]
      simp [hadd]
    obtain ⟨w1, l2, bs, text', i1, i2, i3, i4, i5, i6, i7⟩ := ih (fun r hr' => hr r (by simp [hr']))
      (fun r hr' => hfit r (by simp [hr'])) (w.write (resolve w.cwd path) (text ++ '\n' :: pe.full)) l1 hpl.1 hpl.2 happ
      (es ++ [pe.asB]) (text ++ '\n' :: pe.full) (by simp [World.write]) (hj.append (.of (by
        rw [entryLines_asB]; exact inked_full x3 x5)) (by
        intro b hb
        rw [List.mem_singleton.1 hb]; exact asB_ok x3))
    refine ⟨w1, l2, pe.asB :: bs, text', ?_, i2, i3, ?_, .cons x4.alike i5, by simpa using i6, (List.prefix_append _ _).trans i7⟩
    · simp only [Ledger.importLoop, Rules.entry, SubRules.entry, x1, hap]
      exact i1
    · intro p hp
      rw [i4 p hp]
      simp [World.write, hp]

theorem displayBalance_total (env : Env) (l : Ledger F64) (hi : l.Inv) : ∃ out, l.displayBalance env = .ok out := by
  obtain ⟨tot, ht⟩ := totals_total l.entries [] hi.blanks
  unfold Ledger.displayBalance Ledger.totals
  simp only [ht, bind, Except.bind, pure, Except.pure]
  exact ⟨_, rfl⟩

theorem register_total (env : Env) (l : Ledger F64) (hi : l.Inv) (b e : Option Date) (am : Option Str)
    (hf : ∀ x ∈ l.entries, ∃ d, env.fmtDate x.date l.dateFormat = some d) :
    ∃ ls, Register.display env true l.entries l.dateFormat b e am = .ok ls := by
  obtain ⟨rs, hrs⟩ := rows_total env l.dateFormat am (Register.select l.entries b e am) (by
    intro x hx
    have hx := (List.mem_filter.1 hx).1
    refine ⟨?_, hf x hx⟩
    intro p hp ha
    obtain ⟨o, ho⟩ := hi.blanks x hx p hp ha
    obtain ⟨c, rfl⟩ := blankAmount_some x p hp ha o ho
    exact ⟨c, ho⟩)
  exact ⟨_, by simp only [Register.display, hrs, bind, Except.bind, pure, Except.pure]; rfl⟩

/-! ### C141 -/

/-- C141. Every command without `--no-move` fills the envelopes first, and all of them in the same way, with doubles, as the
program has them: for a journal as in C134 there is one text `filled`, which is what C134 says, such that each command
adds exactly this to the end of the journal, and nothing else on disk changes. The balance report, the envelope report
and (on a terminal) the register then succeed; the commands that are not supported yet, and `silverfox import` without a
statement, fail, but the text has been added. And with a statement `silverfox import` adds exactly this text too, and after it the entries that the rows
of the statement stand for: so the money is divided before the statement is taken into account, and the journal is then
one with these envelopes, with the entries it had, those for the envelopes and those of the statement. -/
theorem C141_every_command_fills_first (env : Env) (hord : FairOrder env.ord) (o : Outside) (w : World)
    (accs : List DeclAccount) (es : List BEntry) (text path day : Str) (h : EnvelopeJournal env accs es text)
    (hf : EnvelopesFit env.today accs es) (hr : w.read path = some text) (hfuel : o.fuel ≠ 0)
    (hp : path.head? = some '/' ∨ '/' ∉ path) (hw : w.canAppend (resolve w.cwd path) = true)
    (hm : (⟨env.today, day, [], []⟩ : Morning).Ok env accs)
    (hcur : ∀ p ∈ accs, ∀ x ∈ p.2, ∀ y ∈ p.2, x.1.name = y.1.name → x.target.sym = y.target.sym)
    (hs : SmallJournal accs es) :
    ∃ after filled, FilledOnF accs ⟨env.today, day, [], []⟩ es after filled ∧
      EnvelopeJournal env accs after (text ++ filled) ∧ EnvelopesFit env.today accs after ∧
      -- every other command
      (∀ (sub : Subcommand) (c : Str) (args : List Str) (fs : List Flag), c.head? = some (subLetter sub) →
        Spelled fs args → journalFor o fs = some path → Flag.noMove ∉ fs → (sub = .import_ → fs.filterMap Flag.csv? = []) →
        ∃ w' r, mainProgram F64 env o (c :: args) w = (w', r) ∧
          w'.file (resolve w.cwd path) = some (text ++ filled) ∧
          (∀ f, f ≠ resolve w.cwd path → w'.file f = w.file f) ∧
          (sub = .balance ∨ sub = .envelopes → ∃ out, r = .ok out) ∧
          (sub = .register → o.terminal = true → (∀ e ∈ es, ∃ d, env.fmtDate e.day s%"%Y/%m/%d" = some d) →
            ∃ out, r = .ok out) ∧
          (sub = .summary ∨ sub = .new ∨ sub = .import_ → r = fail .basic)) ∧
      -- a statement
      (∀ (c : Str) (args : List Str) (fs : List Flag) (cols : List Str) (rows : List BankRow) (header : List Str)
        (records : List (List Str)) (csvFile csvText fmt : Str) (dec : Char) (a b rules : Str), c.head? = some 'i' →
        Spelled fs args → journalFor o fs = some path → Flag.noMove ∉ fs →
        (fs.filterMap Flag.csv?).getLast? = some csvFile →
        let rulesFile := (fs.filterMap Flag.rules?).getLast?.getD (csvFile ++ s%".rules")
        resolve (w.cdParent path).cwd csvFile ≠ resolve w.cwd path →
        resolve (w.cdParent path).cwd rulesFile ≠ resolve w.cwd path →
        (w.cdParent path).read csvFile = some csvText → env.csv csvText = (header :: records).map some →
        (w.cdParent path).read rulesFile = some rules →
        StatementRules (accs.map Prod.fst) cols fmt dec a b rules →
        List.Forall₂ (fun r record => BankRow.In dec cols record r) rows records → (∀ r ∈ rows, r.Ok env fmt) →
        EnvelopesFit env.today accs (rows.map (BankRow.byHand a b)) →
        ∃ w' added bs, mainProgram F64 env o (c :: args) w = (w', .ok []) ∧
          w'.file (resolve w.cwd path) = some (text ++ filled ++ added) ∧
          (∀ f, f ≠ resolve w.cwd path → w'.file f = w.file f) ∧
          List.Forall₂ BEntry.Alike bs (rows.map (BankRow.byHand a b)) ∧
          EnvelopeJournal env accs (after ++ bs) (text ++ filled ++ added)) := by
  obtain ⟨w1, l, served, mss, _, k1, k2, k3, k4, k5, rfl, k6, k7, k8, k9, k10, k11, k12, out, k13, _⟩ := filled_ledger env hord o
    w accs es text path day h hf hr hfuel hp hw hm.date.1 hm.notZero hcur hs.books hs.sides hs.fills
  have hname : endsInName path = true := by
    unfold World.read at hr
    split at hr
    · assumption
    · cases hr
  have hfile : w.file (resolve w.cwd path) = some text := by
    unfold World.read at hr
    rwa [if_pos hname] at hr
  obtain ⟨after, filled, n1, n2, n3, n4⟩ := filled_after h hm hf hcur k4 k5
  have hlines : (fillOf env.today day mss.flatten).lines = [] ↔ mss.flatten = [] := by
    show mss.flatten.map BLine.move = [] ↔ _
    exact List.map_eq_nil_iff
  have hdisk : w1.file (resolve w.cwd path) = some (text ++ filled) ∧ ∀ f, f ≠ resolve w.cwd path → w1.file f = w.file f := by
    rcases n4 with ⟨hem, rfl, _⟩ | ⟨hem, rfl, _⟩
    · rw [k6 (hlines.2 hem), List.append_nil]
      exact ⟨hfile, fun _ _ => rfl⟩
    · exact k7 fun c => hem (hlines.1 c)
  refine ⟨after, filled, n1, n2, n3, ?_, ?_⟩
  · intro sub c args fs hc ha hj hn hno
    have hl := k1 fs hj hn
    have hi := ledgerFor_inv env o fs w w1 l hl
    have hmain : mainProgram F64 env o (c :: args) w = runSub env o (flagsOf sub fs) w1 l := by
      rw [mainProgram_eq env o c args w sub fs hc ha, execute_ledger env o sub fs w w1 l hl]
    have hsub : (runSub env o (flagsOf sub fs) w1 l).1 = w1 := by
      unfold runSub
      cases sub with
      | import_ =>
        simp only [flagsOf, hno rfl, List.getLast?_nil]
      | register => simp only [flagsOf]; split <;> rfl
      | _ => rfl
    refine ⟨w1, (runSub env o (flagsOf sub fs) w1 l).2, ?_, hdisk.1, hdisk.2, ?_, ?_, ?_⟩
    · rw [hmain]; exact Prod.ext hsub rfl
    · rintro (rfl | rfl)
      · exact displayBalance_total env l hi
      · exact ⟨out, k13⟩
    · rintro rfl ht hd
      obtain ⟨out, g⟩ := register_total env l hi none none none (by
        intro x hx
        rw [k9]
        rcases k12 x hx with e | ⟨e, he, e'⟩
        · rw [e]; exact ⟨day, hm.date.1⟩
        · rw [e']; exact hd e he)
      refine ⟨out, ?_⟩
      unfold runSub
      simp only [flagsOf, ht, g]
    · rintro (rfl | rfl | rfl)
      · rfl
      · rfl
      · unfold runSub
        simp only [flagsOf, hno rfl, List.getLast?_nil]
  · intro c args fs cols rows header records csvFile csvText fmt dec a b rules hc ha hj hn hcsv rulesFile hcf hrf hread htable hrules hsr
      hin hok hfit
    have hres := resolve_again w path hp hname
    have hcwd : resolve w1.cwd path = resolve w.cwd path := by rw [k3, hres]
    have hlr : LedgerRead accs l := ⟨k8, k9, k11⟩
    obtain ⟨w2, l2, bs, text', i1, i2, i3, i4, i5, i6, added, i7⟩ := rows_imported_after hord hsr (known := l.accountNames) (by
        intro k hk
        show k ∈ l.accounts.map Prod.fst
        rw [hlr.names]; exact hk) path hname rows records hin hok (fun r hr' => hfit.one (List.mem_map_of_mem hr')) w1 l hlr k10
      (by rw [hcwd, k2]; exact hw) after (text ++ filled) (by rw [hcwd]; exact hdisk.1) n2
    rw [hcwd] at i3 i4
    subst i7
    have hsame : ∀ f t, (w.cdParent path).read f = some t → resolve (w.cdParent path).cwd f ≠ resolve w.cwd path →
        w1.read f = some t := by
      intro f t hft hne
      unfold World.read at hft ⊢
      rw [k3, hdisk.2 _ hne]
      exact hft
    refine ⟨w2, added, bs, ?_, i3, fun f hne => by rw [i4 f hne, hdisk.2 f hne], i5, i6⟩
    rw [mainProgram_eq env o c args w .import_ fs hc ha, execute_ledger env o .import_ fs w w1 l (k1 fs hj hn)]
    have himp : importerFromFile env w1 o.fuel csvFile (fs.filterMap Flag.rules?).getLast? =
        .ok (.mk (statementVals cols fmt dec a b) .nil, records) := by
      unfold importerFromFile
      rw [hsame _ _ hread hcf]
      simp only [show w1.read ((fs.filterMap Flag.rules?).getLast?.getD (csvFile ++ s%".rules")) = some rules from
        hsame _ _ hrules hrf]
      unfold importerFromStrs
      rw [hsr.read h.account_lines]
      simp only [bind, Except.bind]
      rw [htable, show ((header :: records).map some).drop (asUsize (Rules.mk (statementVals cols fmt dec a b) .nil).vals.skip) =
        records.map some from rfl, readRecords_some]
      rfl
    unfold runSub
    simp only [flagsOf, hcsv]
    unfold Ledger.importCsv
    rw [himp]
    simp only [i1]

/-! ### A day with envelopes and a statement -/

def exTripDisk : World := disk [("j", String.ofList exTripText), ("b.csv", String.ofList exMarketStatement),
  ("b.csv.rules", String.ofList exMarketRules)]

/-- The journal of C122 and the statement of C139 meet the conditions. -/
example : EnvelopeJournal (stdEnv june15) exTripAccounts [exSalaryIn, exShopping, exSaving] exTripText ∧
    EnvelopesFit june15 exTripAccounts [exSalaryIn, exShopping, exSaving] ∧
    (⟨june15, s%"2024/06/15", [], []⟩ : Morning).Ok (stdEnv june15) exTripAccounts ∧
    (∀ p ∈ exTripAccounts, ∀ x ∈ p.2, ∀ y ∈ p.2, x.1.name = y.1.name → x.target.sym = y.target.sym) ∧
    SmallJournal exTripAccounts [exSalaryIn, exShopping, exSaving] ∧
    exTripDisk.read s%"j" = some exTripText ∧ exTripDisk.canAppend (resolve exTripDisk.cwd s%"j") = true ∧
    resolve (exTripDisk.cdParent s%"j").cwd s%"b.csv" ≠ resolve exTripDisk.cwd s%"j" ∧
    resolve (exTripDisk.cdParent s%"j").cwd s%"b.csv.rules" ≠ resolve exTripDisk.cwd s%"j" ∧
    (exTripDisk.cdParent s%"j").read s%"b.csv" = some exMarketStatement ∧
    (exTripDisk.cdParent s%"j").read s%"b.csv.rules" = some exMarketRules ∧
    StatementRules (exTripAccounts.map Prod.fst) [s%"date", s%"description", s%"amount"] s%"%Y-%m-%d" '.' s%"bank" s%"shop"
      exMarketRules ∧
    EnvelopesFit june15 exTripAccounts ([exMarket].map (BankRow.byHand s%"bank" s%"shop")) :=
  ⟨exTripText_ok, exTrip_fits, exTwoDays_ok _ (by simp [exTwoDays]), by decide +kernel,
    ⟨small_books_of_all (by decide +kernel) (by decide +kernel) (by decide +kernel) (by decide +kernel),
      by unfold BothSides; decide +kernel, small_fills_of_all (by decide +kernel)⟩,
    by decide +kernel, by decide +kernel, by decide +kernel, by decide +kernel, by decide +kernel, by decide +kernel,
    ⟨⟨[], by decide +kernel, Or.inl ⟨rfl, rfl⟩⟩, ⟨by decide, by decide⟩, by decide +kernel, by decide +kernel, by decide, by decide,
      ⟨by decide, by decide, by decide, by decide⟩, ⟨by decide, by decide, by decide, by decide⟩⟩,
    ⟨exTrip_fits.today, exTrip_fits.schedule, by decide +kernel, by decide +kernel⟩⟩

/-- What each command adds. The food of $ 32 is set aside although the market has taken $ 6.50 on the day before. -/
example :
    let added := fun args => ((mainProgram F64 (stdEnv june15) exOutside args exTripDisk).1.file [s%"h", s%"j"]).map
      (List.drop exTripText.length)
    let filled := s%"\n2024/06/15 ~ move to envelopes // automatically generated by silverfox\n    envelope bank trip                                 $ 12.5\n    envelope bank food                                 $ 32\n"
    (∀ c ∈ [s%"balance", s%"envelopes", s%"register", s%"new", s%"import"], added [c, s%"-f", s%"j"] = some filled) ∧
    added [s%"import", s%"-f", s%"j", s%"--csv", s%"b.csv"] = some (filled ++
      s%"\n2024/06/14 ~ market\n    shop                                               \n    bank                                               $-6.5\n") := by
  decide +kernel

/-- The commands that fail have added it nevertheless. -/
theorem C141_failed_but_written :
    (∀ c ∈ [s%"new", s%"summary", s%"import"], ∃ w, mainProgram F64 (stdEnv june15) exOutside [c, s%"-f", s%"j"] exTripDisk =
      (w, fail .basic) ∧ w.file [s%"h", s%"j"] ≠ exTripDisk.file [s%"h", s%"j"]) := by
  have hs : SmallJournal exTripAccounts [exSalaryIn, exShopping, exSaving] :=
    ⟨small_books_of_all (by decide +kernel) (by decide +kernel) (by decide +kernel) (by decide +kernel),
      by unfold BothSides; decide +kernel, small_fills_of_all (by decide +kernel)⟩
  have key : ∀ c ∈ [s%"new", s%"summary", s%"import"],
      (mainProgram F64 (stdEnv june15) exOutside [c, s%"-f", s%"j"] exTripDisk).1.file [s%"h", s%"j"] ≠
        exTripDisk.file [s%"h", s%"j"] := by decide +kernel
  obtain ⟨after, filled, _, _, _, h, _⟩ := C141_every_command_fills_first (stdEnv june15) (fun _ l => List.Perm.refl l) exOutside
    exTripDisk exTripAccounts _ exTripText s%"j" s%"2024/06/15" exTripText_ok exTrip_fits (by decide +kernel) (by decide)
    (Or.inr (by decide)) (by decide +kernel) (exTwoDays_ok ⟨june15, s%"2024/06/15", [], []⟩ (by simp [exTwoDays])) (by decide +kernel) hs
  intro c hc
  have step : ∀ sub, c.head? = some (subLetter sub) → (sub = .summary ∨ sub = .new ∨ sub = .import_) →
      ∃ w, mainProgram F64 (stdEnv june15) exOutside [c, s%"-f", s%"j"] exTripDisk = (w, fail .basic) := by
    intro sub h1 h2
    obtain ⟨w', r, g1, _, _, _, _, g2⟩ := h sub c [s%"-f", s%"j"] [.file s%"j"] h1 (.cons (.fileShort _) .nil) (by decide) (by simp)
      (fun _ => rfl)
    exact ⟨w', by rw [g1, g2 h2]⟩
  have : ∃ w, mainProgram F64 (stdEnv june15) exOutside [c, s%"-f", s%"j"] exTripDisk = (w, fail .basic) := by
    simp only [List.mem_cons, List.not_mem_nil, or_false] at hc
    rcases hc with rfl | rfl | rfl
    · exact step .new rfl (by simp)
    · exact step .summary rfl (by simp)
    · exact step .import_ rfl (by simp)
  obtain ⟨w', hw'⟩ := this
  have k := key c hc
  rw [hw'] at k
  exact ⟨w', hw', k⟩

end Silverfox
