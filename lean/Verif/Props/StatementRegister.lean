import Verif.Props.StatementEnvelopes

/-
C140: after a bank statement has been imported, the register lists its rows among the entries of the journal.
-/

namespace Silverfox

set_option linter.unusedSectionVars false

/-! ### Entries that say the same are listed the same -/

theorem PEntry.Alike.assets {e e' : PEntry} (h : e.Alike e') : e.assets.Perm e'.assets :=
  h.filterMap (fun e l => if s%"asset" <+: l.account then e.worth l else none) (fun l => by rw [h.worth])
    fun l l' h1 h2 => by rw [h1, worth_value e' h2]

theorem PEntry.Alike.assetsWeighed {e e' : PEntry} (h : e.Alike e') : e.assetsWeighed.Perm e'.assetsWeighed :=
  h.filterMap (fun e l => if s%"asset" <+: l.account then (e.worth l).map fun v => (v, e.weight l) else none)
    (fun l => by rw [h.worth, h.weight]) fun l l' h1 h2 => by rw [h1, worth_value e' h2, weight_value e' h2]

theorem PEntry.Alike.shift {e e' : PEntry} (h : e.Alike e') (s : Option Str) : e.shift s = e'.shift s :=
  (h.assets.map _).sum_eq

theorem PEntry.Alike.swing {e e' : PEntry} (h : e.Alike e') (s : Option Str) : e.swing s = e'.swing s := by
  have hp := h.assetsWeighed.filter fun v => v.1.2 = s
  unfold PEntry.swing
  rw [hp.length_eq, (hp.map _).sum_eq]

theorem alike_map {β : Type} {es es' : List PEntry} (h : List.Forall₂ PEntry.Alike es es') {f : PEntry → β}
    (hf : ∀ e e', e.Alike e' → f e = f e') : es.map f = es'.map f := by
  induction h with
  | nil => rfl
  | cons h1 _ ih => rw [List.map_cons, List.map_cons, hf _ _ h1, ih]

theorem alike_swings {es es' : List PEntry} (h : List.Forall₂ PEntry.Alike es es') (hs : SwingSmall es') : SwingSmall es := by
  intro s
  rw [alike_map h fun e e' he => he.swing s, h.length_eq]
  exact hs s

theorem alike_listed {env : Env} {c : Cols} {upto upto' : List PEntry} (h : List.Forall₂ PEntry.Alike upto upto') {e e' : PEntry}
    (he : e.Alike e') {block : List Str} (hl : ListedAs env c upto e block) : ListedAs env c upto' e' block := by
  obtain ⟨f, g, gs, h1, h2, h3, h4, h5, h6, h7, h8, h9⟩ := hl
  refine ⟨f, g, gs, by rw [← he.day]; exact h1, by rw [← he.mark]; exact h2, by rw [← he.title]; exact h3, h4, h5, h6, h7, ?_, h9⟩
  rw [← he.seen]
  refine h8.imp fun s g hg => ?_
  rw [← he.shift, ← alike_map h fun e e' he => he.shift s]
  exact hg

theorem alike_listing {env : Env} {c : Cols} {before es : List PEntry} {blocks : List (List Str)}
    (hl : Listing (ListedAs env c) before es blocks) {before' es' : List PEntry} (hb : List.Forall₂ PEntry.Alike before before')
    (h : List.Forall₂ PEntry.Alike es es') : Listing (ListedAs env c) before' es' blocks := by
  induction hl generalizing before' es' with
  | done => cases h; exact .done _
  | listed h1 _ ih =>
    cases h with
    | cons he hes =>
      have hb' := List.rel_append hb (.cons he .nil)
      exact .listed (alike_listed hb' he h1) (ih hb' hes)
  | left_out h1 _ ih =>
    cases h with
    | cons he hes => exact .left_out (fun s => by rw [← he.shift]; exact h1 s) (ih (List.rel_append hb (.cons he .nil)) hes)

/-! ### The order of the entries -/

theorem order_determined {α : Type} (day : α → Date) {es es' : List α}
    (h1 : es.Pairwise fun a b => Date.lt (day b) (day a) = false) (h1' : es'.Pairwise fun a b => Date.lt (day b) (day a) = false)
    (hp : es.Perm es') (hf : ∀ d : Date, (es.filter fun e => day e = d) = es'.filter fun e => day e = d) : es = es' := by
  induction es generalizing es' with
  | nil => exact (hp.nil_eq)
  | cons a es ih =>
    cases es' with
    | nil => exact absurd hp.symm.nil_eq (by simp)
    | cons b es' =>
      rw [List.pairwise_cons] at h1 h1'
      have hab : day a = day b := by
        have ha : a = b ∨ a ∈ es' := List.mem_cons.1 (hp.mem_iff.1 (by simp))
        have hb : b = a ∨ b ∈ es := List.mem_cons.1 (hp.symm.mem_iff.1 (by simp))
        rcases ha with rfl | ha
        · rfl
        · rcases hb with rfl | hb
          · rfl
          · have h4 := h1.1 b hb
            have h5 := h1'.1 a ha
            rcases Date.trichotomy (day a) (day b) with h | h | h
            · rw [h] at h5; cases h5
            · exact h
            · rw [h] at h4; cases h4
      have h6 := hf (day a)
      rw [List.filter_cons, List.filter_cons] at h6
      simp only [decide_true, if_true, hab.symm, List.cons.injEq] at h6
      have h7 := h6.1
      subst h7
      rw [ih h1.2 h1'.2 (hp.cons_inv) ?_]
      intro d
      have h8 := hf d
      rw [List.filter_cons, List.filter_cons] at h8
      split at h8
      · exact (List.cons.inj h8).2
      · exact h8

theorem InDayOrder.eq {given es : List BEntry} (h : InDayOrder given es) : es = stableSort (fun a b => Date.lt a.day b.day) given :=
  have h' := stableSort_inDayOrder given
  order_determined BEntry.day h.sorted h'.sorted (h.same.trans h'.same.symm) fun d => (h.stable d).trans (h'.stable d).symm

theorem InDateOrder.eq {given es : List PEntry} (h : InDateOrder given es) : es = stableSort (fun a b => Date.lt a.day b.day) given :=
  have h' := stableSort_inDateOrder given
  order_determined PEntry.day h.sorted h'.sorted (h.same.trans h'.same.symm) fun d => (h.stable d).trans (h'.stable d).symm

/-! ### The listing after the import -/

theorem Listing.block {P : List PEntry → PEntry → List Str → Prop} {before es : List PEntry} {blocks : List (List Str)}
    (h : Listing P before es blocks) {e : PEntry} (he : e ∈ es) {s : Option Str} (hs : e.shift s ≠ 0) :
    ∃ upto block, block ∈ blocks ∧ P upto e block := by
  induction h with
  | done => cases he
  | listed h1 _ ih =>
    rcases List.mem_cons.1 he with rfl | he
    · exact ⟨_, _, List.mem_cons_self .., h1⟩
    · obtain ⟨u, bl, h2, h3⟩ := ih he
      exact ⟨u, bl, List.mem_cons_of_mem _ h2, h3⟩
  | left_out h1 _ ih =>
    rcases List.mem_cons.1 he with rfl | he
    · exact absurd (h1 s) hs
    · exact ih he

theorem row_assets {a b : Str} {r : BankRow} (ha : s%"asset" <+: a) (hb : ¬ s%"asset" <+: b) :
    (r.entry a b).assets = [(r.value, r.currency)] := by
  unfold PEntry.assets BankRow.entry
  simp [ha, hb, PEntry.worth]

/-- The line for a row. -/
theorem row_line {env : Env} {c : Cols} {a b : Str} {r : BankRow} (ha : s%"asset" <+: a) (hb : ¬ s%"asset" <+: b)
    {upto : List PEntry} {block : List Str} (h : ListedAs env c upto (r.entry a b) block) :
    ∃ (f : Front) (g : Str × Str), block = [f.text c ++ figureText c g] ∧ env.fmtDate r.day s%"%Y/%m/%d" = some f.date ∧
      f.status = '~' ∧ f.description = joinWith s%" " (splitWs r.title) ∧
      Amount.parse g.1 '.' = .ok (⟨r.value, r.currency⟩ : Amount Rat) := by
  obtain ⟨f, g, gs, h1, h2, h3, _, _, _, _, h8, h9⟩ := h
  have hs : (r.entry a b).shift r.currency = r.value := by
    unfold PEntry.shift
    rw [row_assets ha hb]
    simp
  rw [row_assets ha hb] at h8
  cases h8 with
  | cons h10 h11 =>
    cases h11
    rw [hs] at h10
    exact ⟨f, g, h9, h1, (List.cons.inj h2).1, h3, h10.1⟩

/-- C140. After `silverfox import`, `silverfox register` goes through the entries of the journal and the rows of the
statement in the order of their days, those of a day in the order of the journal and then of the statement: to each its
day, its description, exactly by how much it changes the assets, and exactly the sum of all changes so far. In
particular, if the statement is one of an asset and says what was paid to others, every row of it that says an amount has
a line, with its day, its description and exactly its amount. -/
theorem C140_statement_in_the_register (env : Env) (hord : FairOrder env.ord) (later : Date) (o o' : Outside) (w : World)
    (accs cols : List Str) (es : List PEntry) (rows : List BankRow) (header : List Str) (records : List (List Str))
    (text path csvFile csvText fmt : Str) (dec : Char) (a b rules : Str)
    -- the journal
    (hj : WrittenJournal env accs es text) (hr : w.read path = some text) (hcr : text.getLast? ≠ some '\r')
    (happ : w.canAppend (resolve w.cwd path) = true) (hp : path.head? = some '/' ∨ '/' ∉ path)
    -- the command
    (hfuel : o.fuel ≠ 0) (c : Str) (args : List Str) (fs : List Flag) (hc : c.head? = some 'i') (hargs : Spelled fs args)
    (hpath : journalFor o fs = some path) (hcsv : (fs.filterMap Flag.csv?).getLast? = some csvFile)
    -- the statement and the rules
    (hread : (w.cdParent path).read csvFile = some csvText) (htable : env.csv csvText = (header :: records).map some)
    (hrules : (w.cdParent path).read ((fs.filterMap Flag.rules?).getLast?.getD (csvFile ++ s%".rules")) = some rules)
    (hsr : StatementRules accs cols fmt dec a b rules)
    (hin : List.Forall₂ (fun r record => BankRow.In dec cols record r) rows records) (hok : ∀ r ∈ rows, r.Ok env fmt)
    -- the books
    (hday : ∀ e ∈ es, ∃ d, env.fmtDate e.day s%"%Y/%m/%d" = some d) (h8 : EightDecimals es)
    (hsmall : SwingSmall (es ++ rows.map (BankRow.entry a b)))
    -- the report
    (hfuel' : o'.fuel ≠ 0) (hterm : o'.terminal = true) (c' : Str) (args' : List Str) (fs' : List Flag)
    (hc' : c'.head? = some 'r') (hargs' : Spelled fs' args') (hpath' : journalFor o' fs' = some path) :
    ∃ w1, mainProgram F64 env o (c :: args) w = (w1, .ok []) ∧
      ∃ w2 out, mainProgram F64 (env.on later) o' (c' :: args') { w1 with cwd := w.cwd } = (w2, .ok out) ∧ w2.file = w1.file ∧
        ∃ ds cols blocks, InDateOrder (es ++ rows.map (BankRow.entry a b)) ds ∧ out = blocks.flatten ∧
          Listing (ListedAs env cols) [] ds blocks ∧
          (s%"asset" <+: a → ¬ s%"asset" <+: b → ∀ r ∈ rows, r.value ≠ 0 → ∃ (f : Front) (g : Str × Str),
            f.text cols ++ figureText cols g ∈ out ∧ env.fmtDate r.day s%"%Y/%m/%d" = some f.date ∧ f.status = '~' ∧
            f.description = joinWith s%" " (splitWs r.title) ∧
            Amount.parse g.1 '.' = .ok (⟨r.value, r.currency⟩ : Amount Rat)) := by
  obtain ⟨w1, added, pes, hmain, i4, i5, i6, i7, i8⟩ := statement_imported env hord o w accs cols es rows header records text path
    csvFile csvText fmt dec a b rules hj hr hcr happ hp hfuel c args fs hc hargs hpath hcsv hread htable hrules hsr hin hok
  have hpes : List.Forall₂ PEntry.Alike pes (rows.map (BankRow.entry a b)) := by
    clear i7 hin hok hsmall
    induction i6 with
    | nil => exact .nil
    | cons h1 _ ih => exact .cons h1.alikeLines ih
  have hall : List.Forall₂ PEntry.Alike (es ++ pes) (es ++ rows.map (BankRow.entry a b)) :=
    List.rel_append (List.forall₂_same.2 fun b _ => .refl b) hpes
  have hj' : WrittenJournal (env.on later) accs (es ++ pes) (text ++ added) :=
    ⟨i7.text, i7.accounts, fun e he =>
      have := i7.entries e he
      ⟨this.date, this.mark, this.title, this.plain, this.lines, this.blanks, this.oneCurrency⟩⟩
  obtain ⟨w2, out, g1, g2, ds, cs, blocks, g3, g4, g5⟩ := C120_the_register_is_exact (env.on later) hord o' { w1 with cwd := w.cwd }
    accs (es ++ pes) (text ++ added) path hj' i8 hfuel' hterm c' args' fs' hc' hargs' hpath' (by
      intro e he
      rcases List.mem_append.1 he with he | he
      · exact hday e he
      · obtain ⟨r, hr', hs⟩ := forall₂_mem_right i6 he
        obtain ⟨d, hd, _⟩ := (hok r hr').day
        exact ⟨d, by rw [hs.1.1]; exact hd⟩) (by
      intro e he
      rcases List.mem_append.1 he with he | he
      · exact h8 e he
      · obtain ⟨r, hr', hs⟩ := forall₂_mem_right i6 he
        intro v hv
        rw [hs.given, List.mem_singleton] at hv
        rw [hv]
        obtain ⟨D, hD, _⟩ := (hok r hr').small
        exact ⟨D, hD⟩) (alike_swings hall hsmall)
  have hl : Listing (ListedAs env cs) [] (stableSort (fun a b => Date.lt a.day b.day) (es ++ rows.map (BankRow.entry a b))) blocks := by
    refine alike_listing g5 .nil ?_
    rw [g3.eq]
    exact stableSort_rel _ _ _ (fun a b c d h1 h2 => by rw [h1.day, h2.day]) _ _ hall
  refine ⟨w1, hmain, w2, out, g1, g2, _, cs, blocks, stableSort_inDateOrder _, g4, hl, ?_⟩
  intro ha hb r hr' hv
  obtain ⟨upto, block, k1, k2⟩ := hl.block (e := r.entry a b) (s := r.currency)
    ((stableSort_inDateOrder _).same.mem_iff.2 (by simp; exact Or.inr ⟨r, hr', rfl⟩)) (by
      unfold PEntry.shift
      rw [row_assets ha hb]
      simpa using hv)
  obtain ⟨f, g, k3, k4⟩ := row_line ha hb k2
  refine ⟨f, g, ?_, k4⟩
  rw [g4, List.mem_flatten]
  exact ⟨block, k1, by rw [k3]; simp⟩

/-- C140. The same beside envelopes, with `--no-move`; what is moved in envelopes is listed as C138 says. -/
theorem C140_beside_envelopes (env : Env) (hord : FairOrder env.ord) (later : Date) (o o' : Outside) (w : World)
    (accs : List DeclAccount) (cols : List Str) (es : List BEntry) (rows : List BankRow) (header : List Str)
    (records : List (List Str)) (text path csvFile csvText fmt : Str) (dec : Char) (a b rules : Str)
    -- the journal
    (hj : EnvelopeJournal env accs es text) (hf : EnvelopesFit env.today accs (es ++ rows.map (BankRow.byHand a b)))
    (hr : w.read path = some text)
    (happ : w.canAppend (resolve w.cwd path) = true) (hp : path.head? = some '/' ∨ '/' ∉ path)
    -- the command
    (hfuel : o.fuel ≠ 0) (c : Str) (args : List Str) (fs : List Flag) (hc : c.head? = some 'i') (hargs : Spelled fs args)
    (hpath : journalFor o fs = some path) (hn : Flag.noMove ∈ fs) (hcsv : (fs.filterMap Flag.csv?).getLast? = some csvFile)
    -- the statement and the rules
    (hread : (w.cdParent path).read csvFile = some csvText) (htable : env.csv csvText = (header :: records).map some)
    (hrules : (w.cdParent path).read ((fs.filterMap Flag.rules?).getLast?.getD (csvFile ++ s%".rules")) = some rules)
    (hsr : StatementRules (accs.map Prod.fst) cols fmt dec a b rules)
    (hin : List.Forall₂ (fun r record => BankRow.In dec cols record r) rows records) (hok : ∀ r ∈ rows, r.Ok env fmt)
    -- the books
    (hday : ∀ e ∈ es, ∃ d, env.fmtDate e.day s%"%Y/%m/%d" = some d)
    (h8 : EightDecimals ((es ++ rows.map (BankRow.byHand a b)).map BEntry.counted))
    (hsmall : SwingSmall ((es ++ rows.map (BankRow.byHand a b)).map BEntry.counted))
    -- the report
    (hlater : later.Inner) (hfuel' : o'.fuel ≠ 0) (hterm : o'.terminal = true) (c' : Str) (args' : List Str) (fs' : List Flag)
    (hc' : c'.head? = some 'r') (hargs' : Spelled fs' args') (hpath' : journalFor o' fs' = some path) (hn' : Flag.noMove ∈ fs') :
    ∃ w1, mainProgram F64 env o (c :: args) w = (w1, .ok []) ∧
      ∃ w2 out, mainProgram F64 (env.on later) o' (c' :: args') { w1 with cwd := w.cwd } = (w2, .ok out) ∧ w2.file = w1.file ∧
        ∃ ds cols blocks, InDayOrder (es ++ rows.map (BankRow.byHand a b)) ds ∧ out = blocks.flatten ∧
          Listing (ListedAs env cols) [] (ds.map BEntry.counted) blocks := by
  obtain ⟨w1, added, h1, h2, _, ⟨bs, h3, h4⟩, _⟩ := C139_statement_beside_envelopes env hord later o o' w accs cols es rows header
    records text path csvFile csvText fmt dec a b rules hj hf hr happ hp hfuel c args fs hc hargs hpath hn hcsv hread htable hrules hsr
    hin hok hlater hfuel'
  have hall : List.Forall₂ BEntry.Alike (es ++ bs) (es ++ rows.map (BankRow.byHand a b)) :=
    List.rel_append (List.forall₂_same.2 fun b _ => .refl b) h3
  have hmap : ∀ {xs ys : List BEntry}, List.Forall₂ BEntry.Alike xs ys →
      List.Forall₂ PEntry.Alike (xs.map BEntry.counted) (ys.map BEntry.counted) := by
    intro xs ys h
    induction h with
    | nil => exact .nil
    | cons h1 _ ih => exact .cons h1.counted ih
  have hname : endsInName path = true := by
    unfold World.read at hr
    split at hr
    · assumption
    · cases hr
  obtain ⟨w2, out, g1, g2, ds, cs, blocks, g3, g4, g5⟩ := C138_exact_rule (env.on later) hord o' { w1 with cwd := w.cwd } accs
    (es ++ bs) (text ++ added) path (h4.on later) (alike_fit hall ⟨hlater, hf.schedule, hf.named, hf.spent⟩)
    (by unfold World.read; rw [if_pos hname]; exact h2) hfuel' hterm c' args' fs' hc' hargs' hpath' hn' (by
      intro e he
      rcases List.mem_append.1 he with he | he
      · exact hday e he
      · obtain ⟨r', hr', hs⟩ := forall₂_mem_left h3 he
        obtain ⟨r, hr, rfl⟩ := List.mem_map.1 hr'
        obtain ⟨d, hd, _⟩ := (hok r hr).day
        exact ⟨d, by rw [hs.day]; exact hd⟩) (alike_counted8 hall h8) (alike_swings (hmap hall) hsmall)
  refine ⟨w1, h1, w2, out, g1, g2, _, cs, blocks, stableSort_inDayOrder _, g4, alike_listing g5 .nil (hmap ?_)⟩
  rw [g3.eq]
  exact stableSort_rel _ _ _ (fun a b c d h1 h2 => by rw [h1.day, h2.day]) _ _ hall

/-! ### A statement -/

def exTeaRow : BankRow := ⟨s%"2024-01-03", s%"tea", s%"$-2.30", ⟨2024, 1, 3, by decide⟩, -23 / 10, some s%"$"⟩
def exTeaStatement : Str := s%"Day,What,Amount\n2024-01-03,tea,$-2.30\n"
def exTeaRules : Str :=
  s%"fields date,description,amount\n\ndate_format %Y-%m-%d\naccount1 assets:cash\namount1 %amount%\naccount2 food\n"
def exTeaRecords : List (List Str) := [[s%"2024-01-03", s%"tea", s%"$-2.30"]]
def exTeaDisk : World :=
  disk [("j", String.ofList exListedText), ("b.csv", String.ofList exTeaStatement), ("b.csv.rules", String.ofList exTeaRules)]

/-- The journal of C120, a statement and its rules meet the conditions. -/
example : WrittenJournal (stdEnv june15) [s%"assets:cash", s%"food"] [exListed1, exListed2] exListedText ∧
    exTeaDisk.read s%"j" = some exListedText ∧ exListedText.getLast? ≠ some '\r' ∧
    (exTeaDisk.cdParent s%"j").read s%"b.csv" = some exTeaStatement ∧
    (exTeaDisk.cdParent s%"j").read s%"b.csv.rules" = some exTeaRules ∧
    (stdEnv june15).csv exTeaStatement = ([s%"Day", s%"What", s%"Amount"] :: exTeaRecords).map some ∧
    StatementRules [s%"assets:cash", s%"food"] [s%"date", s%"description", s%"amount"] s%"%Y-%m-%d" '.' s%"assets:cash" s%"food"
      exTeaRules ∧
    List.Forall₂ (fun r record => BankRow.In '.' [s%"date", s%"description", s%"amount"] record r) [exTeaRow] exTeaRecords ∧
    (∀ r ∈ [exTeaRow], r.Ok (stdEnv june15) s%"%Y-%m-%d") ∧
    (∀ e ∈ [exListed1, exListed2], ∃ d, (stdEnv june15).fmtDate e.day s%"%Y/%m/%d" = some d) ∧
    SwingSmall ([exListed1, exListed2] ++ [exTeaRow].map (BankRow.entry s%"assets:cash" s%"food")) := by
  refine ⟨exListed_ok, by decide +kernel, by decide +kernel, by decide +kernel, by decide +kernel, by decide +kernel, ?_, ?_, ?_, ?_, ?_⟩
  · exact ⟨⟨[], by decide +kernel, Or.inl ⟨rfl, rfl⟩⟩, ⟨by decide, by decide⟩, by decide +kernel, by decide +kernel, by decide, by decide,
      ⟨by decide, by decide, by decide, by decide⟩, ⟨by decide, by decide, by decide, by decide⟩⟩
  · exact .cons ⟨by decide, by decide, ⟨s%"$-2.30", by decide, ⟨by decide +kernel, by decide, by decide, by decide +kernel⟩⟩, by decide⟩ .nil
  · have hd : ValidSymbol '.' s%"$" := by decide
    have a1 : WrittenAmount s%"$-2.30" (-23 / 10) (some s%"$") :=
      ⟨s%"-2.30", true, 230, 2, ⟨s%"2", s%"30", by decide, by decide, by decide, by decide, by decide, by decide⟩,
        by norm_num, Or.inr ⟨_, rfl, hd, by decide⟩⟩
    intro r hr
    simp only [List.mem_cons, List.not_mem_nil, or_false] at hr
    subst hr
    exact ⟨by decide +kernel, writableDay_default _ rfl rfl _ (by decide), by decide +kernel, a1, by decide +kernel, by decide +kernel,
        ⟨-230000000, by norm_num [exTeaRow], by decide⟩⟩
  · intro e he
    simp only [List.mem_cons, List.not_mem_nil, or_false] at he
    rcases he with rfl | rfl
    · exact ⟨s%"2024/01/05", by decide +kernel⟩
    · exact ⟨s%"2024/01/02", by decide +kernel⟩
  · have h1 : exListed1.assetsWeighed = [((-13 / 4, some s%"$"), 39 / 4)] := by decide +kernel
    have h2 : exListed2.assetsWeighed = [((21 / 2, some s%"$"), 21 / 2)] := by decide +kernel
    have h3 : (exTeaRow.entry s%"assets:cash" s%"food").assetsWeighed = [((-23 / 10, some s%"$"), 23 / 10)] := by decide +kernel
    intro s
    simp only [List.map_cons, List.map_nil, List.cons_append, List.nil_append, List.sum_cons, List.sum_nil, PEntry.swing, h1, h2, h3]
    by_cases hs : some s%"$" = s
    · subst hs; norm_num
    · rw [List.filter_cons_of_neg (by simpa using hs), List.filter_cons_of_neg (by simpa using hs),
        List.filter_cons_of_neg (by simpa using hs)]; norm_num

/-- What is printed afterwards: the row has its place between the two entries. -/
example : (mainProgram F64 (stdEnv june16) exOutside [s%"register", s%"-f", s%"j"]
      { (mainProgram F64 (stdEnv june15) exOutside [s%"import", s%"-f", s%"j", s%"--csv", s%"b.csv"] exTeaDisk).1 with
        cwd := exTeaDisk.cwd }).2 = .ok [
        s%"2024/01/02 * pay         food -> assets:cash  $ 10.5  $ 10.5",
        s%"2024/01/03 ~ tea  assets:cash -> food          $-2.3   $ 8.2",
        s%"2024/01/05 ? eat  assets:cash -> food         $-3.25  $ 4.95"] := by decide +kernel

/-! ### A statement and an envelope -/

/-- The journal of C138 and the row of C139 meet the conditions on the books. -/
example : EnvelopeJournal (stdEnv june15) exAssetAccounts [exAssetPay, exAssetSave] exAssetText ∧
    EnvelopesFit june15 exAssetAccounts ([exAssetPay, exAssetSave] ++ [exMarket].map (BankRow.byHand s%"assets:bank" s%"shop")) ∧
    EightDecimals (([exAssetPay, exAssetSave] ++ [exMarket].map (BankRow.byHand s%"assets:bank" s%"shop")).map BEntry.counted) ∧
    SwingSmall (([exAssetPay, exAssetSave] ++ [exMarket].map (BankRow.byHand s%"assets:bank" s%"shop")).map BEntry.counted) := by
  refine ⟨exAssetText_ok, ⟨exAsset_fits.today, exAsset_fits.schedule, by decide +kernel, by decide +kernel⟩, ?_, ?_⟩
  · have h : ∀ e ∈ ([exAssetPay, exAssetSave] ++ [exMarket].map (BankRow.byHand s%"assets:bank" s%"shop")).map BEntry.counted,
      ∀ v ∈ e.given, (v.1 * 100000000).den = 1 := by decide +kernel
    exact fun e he v hv => whole_of_den (h e he v hv)
  · have h1 : exAssetPay.counted.assetsWeighed = [((100, some s%"$"), 100), ((61 / 2, some s%"$"), 61 / 2)] := by
      decide +kernel
    have h2 : exAssetSave.counted.assetsWeighed = [((8, some s%"$"), 8)] := by decide +kernel
    have h3 : (exMarket.byHand s%"assets:bank" s%"shop").counted.assetsWeighed = [((-13 / 2, some s%"$"), 13 / 2)] := by
      decide +kernel
    intro s
    simp only [List.map_cons, List.map_nil, List.cons_append, List.nil_append, List.sum_cons, List.sum_nil, PEntry.swing, h1, h2, h3]
    by_cases hs : some s%"$" = s
    · subst hs; norm_num
    · rw [List.filter_cons_of_neg (by simpa using hs), List.filter_cons_of_neg (by simpa using hs),
        List.filter_cons_of_neg (by simpa using hs), List.filter_cons_of_neg (by simpa using hs)]; norm_num

/-- What is printed: the row at its place, behind the two entries, whose envelope lines are counted. -/
example :
    let d := disk [("j", String.ofList exAssetText), ("b.csv", String.ofList exMarketStatement),
      ("r", "fields date,description,amount\n\ndate_format %Y-%m-%d\naccount1 assets:bank\namount1 %amount%\naccount2 shop\n")]
    (mainProgram F64 (stdEnv june16) exOutside [s%"register", s%"-f", s%"j", s%"-n"]
      { (mainProgram F64 (stdEnv june15) exOutside [s%"import", s%"-n", s%"-f", s%"j", s%"--csv", s%"b.csv", s%"--rules", s%"r"] d).1
        with cwd := d.cwd }).2 = .ok [
        s%"2024/06/01 * salary          pay -> assets:bank  $ 130.5  $ 130.5",
        s%"2024/06/02 * save         (none) -> assets:bank      $ 8  $ 138.5",
        s%"2024/06/14 ~ market  assets:bank -> shop           $-6.5    $ 132"] := by decide +kernel

end Silverfox
