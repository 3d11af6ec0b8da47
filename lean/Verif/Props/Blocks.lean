import Verif.Props.EndToEnd

/-
From lines that are read as entries to the balance report, for any way of writing the entries.
-/

namespace Silverfox

set_option linter.unusedSectionVars false

variable {M : Type} [Mag M]

/-! ### Loading -/

/-- An entry as it stands in a file, and as it is read. -/
structure EBlock (M : Type) where
  head : Str
  rest : List Str
  entry : Entry M

/-- What the scanner hands to the parser. -/
def EBlock.chunk (b : EBlock M) : Str := effective b.head ++ restOf b.rest

/-- The block is read as this entry, and the entry can be booked. -/
structure EBlock.Ok (env : Env) (fmt : Str) (accs : List Str) (b : EBlock M) : Prop where
  start : ∃ c r, effective b.head = c :: r ∧ isWs c = false
  rest : ∀ t ∈ b.rest, ∃ c r, effective t = c :: r ∧ isWs c = true
  first : ∃ d, (splitWs b.chunk).head? = some d ∧ d ∉ keywords
  parse : ∀ names, (∀ k ∈ accs, k ∈ names) → Entry.parse env b.chunk fmt '.' names = .ok b.entry
  blank : ∀ p ∈ b.entry.postings, p.amount = none → ∃ v, b.entry.blankAmount = .ok v

/-- A ledger without envelopes, with this date format. -/
structure BookLedger (fmt : Str) (accs : List Str) (l : Ledger M) : Prop where
  decimal : l.decimal = '.'
  dateFormat : l.dateFormat = fmt
  names : ∀ k ∈ accs, k ∈ l.accountNames
  bare : ∀ k a, (k, a) ∈ l.accounts → a.expenses = [] ∧ a.goals = []

theorem PlainLedger.book {accs : List Str} {l : Ledger M} (h : PlainLedger accs l) : BookLedger s%"%Y/%m/%d" accs l :=
  ⟨h.decimal, h.dateFormat, h.names, h.bare⟩

theorem BookLedger.plain {accs : List Str} {l : Ledger M} (h : BookLedger s%"%Y/%m/%d" accs l) : PlainLedger accs l :=
  ⟨h.decimal, h.dateFormat, h.names, h.bare⟩

theorem EBlock.Ok.reading {env : Env} (hord : FairOrder env.ord) {fmt : Str} {accs : List Str} {b : EBlock M}
    (h : b.Ok env fmt accs) {l : Ledger M} (hl : BookLedger fmt accs l) :
    ∃ l', Reading env b.chunk l l' ∧ BookLedger fmt accs l' ∧
      l'.entries = stableSort (fun a b => Date.lt a.date b.date) (l.entries ++ [b.entry]) := by
  obtain ⟨as', h1, h2, h3⟩ := processAll_total env.today b.entry l.accounts hl.bare h.blank
  obtain ⟨d, hd, hk⟩ := h.first
  refine ⟨_, Reading.entry d b.entry _ hd hk ?_ ((addEntry_iff env hord l _ b.entry).2 ⟨as', h1, rfl⟩), ?_, rfl⟩
  · rw [hl.decimal, hl.dateFormat]; exact h.parse _ hl.names
  · exact ⟨hl.decimal, hl.dateFormat, fun k hk => by
      show k ∈ as'.map Prod.fst
      rw [h2]; exact hl.names k hk, h3⟩

theorem blocks_read {env : Env} (hord : FairOrder env.ord) (inc : Ledger M × World → Str → Res (Ledger M × World))
    (w : World) (accs : List Str) (bs : List (EBlock M)) (hbs : ∀ b ∈ bs, b.Ok env s%"%Y/%m/%d" accs) (l : Ledger M)
    (hl : PlainLedger accs l) (xs0 : List (Entry M)) (h0 : DateOrdered xs0 l.entries) :
    ∃ l', PlainLedger accs l' ∧ DateOrdered (xs0 ++ bs.map EBlock.entry) l'.entries ∧
      readItems env inc (bs.map EBlock.chunk) (l, w) = .ok (l', w) := by
  induction bs generalizing l xs0 with
  | nil => exact ⟨l, hl, by simpa using h0, rfl⟩
  | cons b bs ih =>
    obtain ⟨l1, h2, h3, h4⟩ := (hbs b (by simp)).reading hord hl.book
    obtain ⟨l', h6, h7, h8⟩ := ih (fun j hj => hbs j (by simp [hj])) l1 h3.plain (xs0 ++ [b.entry])
      (by rw [h4]; exact h0.snoc b.entry)
    refine ⟨l', h6, by simpa using h7, ?_⟩
    rw [List.map_cons, readItems, parseChunk_of_reading env _ _ _ _ _ h2]
    exact h8

/-- A file of declarations and blocks is loaded: every entry once, in the order of the dates. -/
theorem blocks_load {env : Env} (hord : FairOrder env.ord) {accs : List Str} {bs : List (EBlock M)} {text : Str}
    (htext : inked (lines text) = accs.map (s%"account " ++ ·) ++ bs.flatMap fun b => b.head :: b.rest)
    (haccs : ∀ k ∈ accs, isWord k ∧ NoComment (s%"account " ++ k)) (hbs : ∀ b ∈ bs, b.Ok env s%"%Y/%m/%d" accs)
    (fuel : Nat) (w : World) (path : Str) (hr : w.read path = some text) :
    ∃ l : Ledger M, PlainLedger accs l ∧ DateOrdered (bs.map EBlock.entry) l.entries ∧
      Ledger.fromFile env (fuel + 1) w path = .ok (l, w.cdParent path) := by
  have hit : Itemised (inked (lines text)) ([] :: (accs.map (fun k => effective (s%"account " ++ k) ++ restOf []) ++
      bs.map EBlock.chunk)) := by
    refine ⟨⟨[], accs.map (fun k => (s%"account " ++ k, [])) ++ bs.map (fun b => (b.head, b.rest)),
      ?_, by simp [Continuing], ?_, ?_⟩⟩
    · rw [htext, List.flatMap_append, List.flatMap_map, List.flatMap_map]
      rw [List.map_eq_flatMap]
      rfl
    · intro b hb
      rcases List.mem_append.1 hb with hb | hb
      · obtain ⟨k, hk, rfl⟩ := List.mem_map.1 hb
        refine ⟨by simp [Continuing], 'a', ?_⟩
        have hk := haccs k hk
        have h1 : ¬ allWs k := by
          intro ha
          obtain ⟨c, r, hc⟩ := List.exists_cons_of_ne_nil hk.1.1
          have h1 := ha c (by simp [hc])
          rw [hk.1.2 c (by simp [hc])] at h1; cases h1
        refine ⟨s%"ccount " ++ trimEnd k, ?_, by decide⟩
        show effective (s%"account " ++ k) = _
        rw [effective_plain hk.2, trimEnd_ink _ h1]
        rfl
      · obtain ⟨e, he, rfl⟩ := List.mem_map.1 hb
        have he := hbs e he
        refine ⟨?_, he.start⟩
        intro t ht c hc
        obtain ⟨c', r, h1, h2⟩ := he.rest t ht
        rw [h1] at hc
        cases hc; exact h2
    · rw [List.map_append, List.map_map, List.map_map]; rfl
  obtain ⟨l1, h1, h2, h3⟩ := accounts_read (M := M) env (Ledger.addFromFile env fuel) (w.cdParent path) accs haccs
    (bs.map EBlock.chunk) [] (Ledger.new path) ⟨rfl, rfl, by simp, by simp [Ledger.new]⟩ rfl
  rw [List.append_nil] at h1
  obtain ⟨l, h5, h6, h7⟩ := blocks_read hord (Ledger.addFromFile env fuel) (w.cdParent path) accs bs
    hbs l1 h1 [] (by rw [h2]; exact ⟨List.Pairwise.nil, .refl _, fun _ => rfl⟩)
  refine ⟨l, h5, by simpa using h6, ?_⟩
  have hfile : ∀ cs, Itemised (inked (lines text)) cs → Ledger.addFromFile env (fuel + 1) (Ledger.new path, w) path =
      readItems (M := M) env (Ledger.addFromFile env fuel) cs (Ledger.new path, w.cdParent path) := by
    intro cs hc
    obtain ⟨lead, blocks, g1, g2, g3, rfl⟩ := hc.exist
    rw [Ledger.addFromFile, hr]
    simp only
    rw [addLinesFrom_inked, g1]
    exact addLinesFrom_items env _ blocks g3 lead g2 _ []
  unfold Ledger.fromFile
  rw [hfile _ hit, readItems, parseChunk_of_nothing env _ _ [] rfl]
  show readItems env _ _ (Ledger.new path, w.cdParent path) = _
  rw [h3, h7]

/-! ### The report -/

theorem fill_without_envelopes (env : Env) (hord : FairOrder env.ord) (l : Ledger M)
    (hl : ∀ k a, (k, a) ∈ l.accounts → a.expenses = [] ∧ a.goals = []) (w : World) : l.fillEnvelopes env w = (w, .ok l) := by
  have key : ∀ as : List (Str × Account M), (∀ k a, (k, a) ∈ as → a.expenses = [] ∧ a.goals = []) →
      Ledger.fillAll env.today as = .ok [] := by
    intro as
    induction as with
    | nil => intro _; rfl
    | cons p as ih =>
      obtain ⟨k, a⟩ := p
      intro h
      obtain ⟨h1, h2⟩ := h k a (by simp)
      simp only [Ledger.fillAll, Account.fillingPostings, Account.envelopes, h1, h2, List.append_nil, List.reverse_nil,
        Account.fillLoop, bind, Except.bind, ih fun k a hm => h k a (by simp [hm]), pure, Except.pure]
  unfold Ledger.fillEnvelopes
  rw [key _ fun k a hm => hl k a ((hord _ _).mem_iff.1 hm)]
  rfl

/-- The balance report on a journal without envelopes, from its entries. -/
theorem entries_report (env : Env) (hord : FairOrder env.ord) (o : Outside) (w : World)
    (xs : List (Entry M)) (l : Ledger M) (path : Str) (hload : Ledger.fromFile env o.fuel w path = .ok (l, w.cdParent path))
    (hl : ∀ k a, (k, a) ∈ l.accounts → a.expenses = [] ∧ a.goals = []) (hd : DateOrdered xs l.entries)
    (hnone : ∀ x ∈ xs, ∀ p ∈ x.postings, p.isEnvelope = false) (hsym : ReadableSymbols xs)
    (c : Str) (args : List Str) (fs : List Flag) (hc : c.head? = some 'b') (ha : Spelled fs args)
    (hj : journalFor o fs = some path)
    (hfmt : (∀ m : M, FmtOk (round8 m)) ∨ ∀ k, FirstHasAmount k l.entries ∧ ∀ ms : List (Amount M),
      ms.Perm (xs.flatMap fun x => x.movesOf k) → ∀ a ∈ ms.foldl Pool.add [], FmtOk (round8 a.mag)) :
    ∃ w' out, mainProgram M env o (c :: args) w = (w', .ok out) ∧ w'.file = w.file ∧
      (readReport out).Pairwise (fun a b => strLt a.1 b.1 = true) ∧
      (∀ k, k ∈ (readReport out).map Prod.fst ↔ ∃ x ∈ xs, ∃ p ∈ x.postings, p.account = k) ∧
      ∀ k ts, (k, ts) ∈ readReport out → FirstHasAmount k l.entries → ∃ ms : List (Amount M),
        ms.Perm (xs.flatMap fun x => x.movesOf k) ∧ List.Forall₂ (fun t (a : Amount M) => t = a.display ∧
          ∀ s, a.sym = some s → ValidSymbol '.' s) ts (ms.foldl Pool.add []) := by
  have hinv := loaded_inv _ _ _ _ _ _ hload
  obtain ⟨tot, ht⟩ := totals_total l.entries [] hinv.blanks
  have hdb : ∃ out, l.displayBalance env = .ok out := by
    unfold Ledger.displayBalance
    rw [show l.totals = .ok tot from ht]
    exact ⟨_, rfl⟩
  obtain ⟨out, hout⟩ := hdb
  have hlf : LedgerFor env o fs w l (w.cdParent path) := by
    refine ⟨path, l, _, hj, hload, ?_⟩
    by_cases hn : Flag.noMove ∈ fs
    · exact Or.inl ⟨hn, rfl, rfl⟩
    · exact Or.inr ⟨hn, fill_without_envelopes env hord l hl _⟩
  have hposts : ∀ k, (∃ x ∈ l.entries, ∃ p ∈ x.postings, p.account = k) ↔ ∃ x ∈ xs, ∃ p ∈ x.postings, p.account = k := by
    intro k
    constructor
    · rintro ⟨x, hx, p, hp⟩; exact ⟨x, hd.same.mem_iff.1 hx, p, hp⟩
    · rintro ⟨x, hx, p, hp⟩; exact ⟨x, hd.same.mem_iff.2 hx, p, hp⟩
  have hsym' : ReadableSymbols l.entries := fun x hx => hsym x (hd.same.mem_iff.1 hx)
  have hpool : ∀ k, FirstHasAmount k l.entries → ∀ pool, countAll k l.entries none = some pool →
      ∃ ms : List (Amount M), ms.Perm (xs.flatMap fun x => x.movesOf k) ∧ pool = ms.foldl Pool.add [] := by
    intro k hseen pool h5
    have hne : NoEnvelopeOf k l.entries := by
      intro x hx p hp he
      rw [hnone x (hd.same.mem_iff.1 hx) p hp] at he; cases he
    rw [countAll_none k l.entries hne hseen] at h5
    split at h5
    · cases h5
      exact ⟨l.entries.flatMap fun x => x.movesOf k, hd.same.flatMap_right _, rfl⟩
    · cases h5
  obtain ⟨r1, r2, r3⟩ := report_reads_back env hord l out hout (loaded_words env o.fuel w _ path l hload) hsym' (by
    intro k pool hk a ha
    rcases hfmt with hfmt | hfmt
    · exact hfmt a.mag
    · obtain ⟨ms, h5, rfl⟩ := hpool k (hfmt k).1 pool hk
      exact (hfmt k).2 ms h5 a ha)
  refine ⟨_, out, C79_report_printed env o c args w (w.cdParent path) out .balance fs hc ha l hlf (.balance hout)
    (by simp) (by simp), rfl, r1, fun k => (r2 k).trans (hposts k), ?_⟩
  intro k ts hm hseen
  obtain ⟨pool, h5, h6⟩ := r3 k ts hm
  have hq : ∀ b ∈ pool, ∀ s, b.sym = some s → ValidSymbol '.' s :=
    (countAll_syms (fun o => ∀ s, o = some s → ValidSymbol '.' s) (by simp) k l.entries hsym' none (by simp) pool h5).1
  obtain ⟨ms, hperm, rfl⟩ := hpool k hseen pool h5
  exact ⟨ms, hperm, forall₂_strengthen h6 fun t a ha ht => ⟨ht.1, hq a ha⟩⟩

/-- The amounts shown for a list of exact amounts. -/
theorem shown_exact (ms ns : List (Amount Rat)) (hperm : ms.Perm ns) (ts : List Str)
    (h : List.Forall₂ (fun t (a : Amount Rat) => t = a.display ∧ ∀ s, a.sym = some s → ValidSymbol '.' s) ts
      (ms.foldl Pool.add [])) :
    ∃ cs : List (Option Str), cs.Nodup ∧ (∀ s, s ∈ cs ↔ ∃ a ∈ ns, a.sym = s) ∧
      List.Forall₂ (fun t s => ∃ q : Rat, Amount.parse t '.' = .ok (⟨q, s⟩ : Amount Rat) ∧
        |q - (ns.map fun a => if a.sym = s then a.mag else 0).sum| ≤ 1 / 200000000) ts cs := by
  have hsyms := pool_syms ms
  refine ⟨(ms.foldl Pool.add []).map Amount.sym, hsyms.1, ?_, ?_⟩
  · intro s
    rw [hsyms.2 s, (hperm.map Amount.sym).mem_iff]
    simp only [List.mem_map]
  · rw [List.forall₂_map_right_iff]
    have hval : ∀ a ∈ ms.foldl Pool.add [], a.mag = (ns.map fun b => if b.sym = a.sym then b.mag else 0).sum := by
      intro a ha
      have e1 : Pool.bal (ms.foldl Pool.add []) a.sym = a.mag := by
        rw [Pool.bal_eq, line_of_mem _ hsyms.1 a ha]; rfl
      rw [← e1, bal_foldl_add]
      show 0 + _ = _
      rw [zero_add, (hperm.map _).sum_eq]
    refine forall₂_strengthen h ?_
    intro t a ha ht
    obtain ⟨q, k1, _, k2⟩ := C08_round_trip_exact a (ht.2)
    exact ⟨q, by rw [ht.1]; exact k1, by rw [← hval a ha]; exact k2⟩

end Silverfox
