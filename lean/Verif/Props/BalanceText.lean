import Verif.Props.Amounts
import Verif.Props.Order
import Verif.Props.Entries
import Verif.Props.Ledger

/-
C107: the text of the balance report.
-/

namespace Silverfox

set_option linter.unusedSectionVars false
variable {M : Type} [Mag M]

/-! ### The specification: how a reader takes the report -/

/-- The lines of the text: what is printed may itself have line ends. -/
def textLines (printed : List Str) : List Str := printed.flatMap (splitOn '\n')

/-- A line that begins with a tab is an amount of the account above; any other line begins with the name of an account,
and has an amount from column 39 on, or behind the name if that is longer, unless the amounts follow below. First the
amounts of lines with a tab that have no account above them, then the accounts with their amounts. -/
def readLines : List Str → List Str × List (Str × List Str)
  | [] => ([], [])
  | l :: ls =>
    let (above, accs) := readLines ls
    if l.head? = some '\t' then (l.drop 1 :: above, accs)
    else
      let name := l.takeWhile (· ≠ ' ')
      let amount := l.drop (max 35 name.length + 4)
      ([], (name, if amount = [] then above else [amount]) :: accs)

/-- The accounts and amounts of a report. -/
def readReport (printed : List Str) : List (Str × List Str) := (readLines (textLines printed)).2

/-! ### Proof -/

theorem display_noNl {a : Amount M} (hf : FmtOk (round8 a.mag)) (hs : ∀ s, a.sym = some s → ValidSymbol '.' s) :
    noNl a.display ∧ a.display ≠ [] := by
  obtain ⟨⟨neg, d, k, hn⟩, _⟩ := hf
  have h0 : (Mag.fmt (round8 a.mag)) ≠ [] := hn.chars.1
  have h1 : Silverfox.noNl (Mag.fmt (round8 a.mag)) := word_noNl ⟨hn.chars.1, hn.noWs⟩
  have hm : Silverfox.noNl (magText a.mag) ∧ magText a.mag ≠ [] := by
    unfold magText
    split
    · exact ⟨h1, h0⟩
    · exact ⟨noNl_cons (by decide) h1, by simp⟩
  unfold Amount.display
  cases hy : a.sym with
  | none => exact hm
  | some s =>
    have hs := word_noNl (hs s hy).word
    simp only
    split
    · exact ⟨noNl_append.2 ⟨hs, hm.1⟩, by simp [hm.2]⟩
    · exact ⟨noNl_append.2 ⟨hm.1, noNl_cons (by decide) hs⟩, by simp⟩

theorem takeWhile_name (name r : Str) (h : isWord name) (n : Nat) :
    (padRight n name ++ s%"    " ++ r).takeWhile (· ≠ ' ') = name := by
  have h1 : ∀ c ∈ name, decide (c ≠ ' ') = true := by
    intro c hc
    have := h.2 c hc
    rw [decide_eq_true_eq]
    rintro rfl
    revert this; decide
  have h2 : padRight n name ++ s%"    " ++ r = name ++ ' ' :: (List.replicate (n - name.length) ' ' ++ s%"   " ++ r) := by
    unfold padRight
    have : ∀ k : Nat, List.replicate k ' ' ++ ' ' :: ' ' :: ' ' :: ' ' :: r = ' ' :: (List.replicate k ' ' ++ ' ' :: ' ' :: ' ' :: r) := by
      intro k
      induction k with
      | zero => rfl
      | succ k ih => simp only [List.replicate_succ, List.cons_append, ih]
    simp only [List.append_assoc, List.cons_append, List.nil_append]
    rw [this]
  rw [h2, List.takeWhile_append_of_pos h1]
  simp

theorem drop_name (name r : Str) : (padRight 35 name ++ s%"    " ++ r).drop (max 35 name.length + 4) = r := by
  have : (padRight 35 name ++ s%"    ").length = max 35 name.length + 4 := by
    unfold padRight
    simp only [List.length_append, List.length_replicate, List.length_cons, List.length_nil]
    omega
  rw [← this, List.drop_left]

theorem head_name (name r : Str) (h : isWord name) (n : Nat) : (padRight n name ++ r).head? ≠ some '\t' := by
  obtain ⟨hne, hw⟩ := h
  cases name with
  | nil => exact absurd rfl hne
  | cons c name =>
    have := hw c (by simp)
    simp only [padRight, List.cons_append, List.head?_cons, ne_eq, Option.some.injEq]
    rintro rfl
    revert this; decide

theorem head_line (name r : Str) (h : isWord name) (n : Nat) : (padRight n name ++ s%"    " ++ r).head? ≠ some '\t' := by
  rw [List.append_assoc]; exact head_name name _ h n

/-- What is printed for one account, as lines. -/
theorem lines_of (name : Str) (hw : isWord name) (pool : Pool M) (hne : pool ≠ [])
    (hd : ∀ a ∈ pool, noNl a.display ∧ a.display ≠ []) (rest : List Str) (accs : List (Str × List Str))
    (hr : readLines rest = ([], accs)) :
    readLines (splitOn '\n' (padRight 35 name ++ s%"    " ++ Pool.display pool) ++ rest) =
      ([], (name, pool.map Amount.display) :: accs) := by
  have hpre : '\n' ∉ padRight 35 name ++ s%"    " :=
    noNl_append.2 ⟨padRight_noNl (word_noNl hw), by decide⟩
  cases pool with
  | nil => exact absurd rfl hne
  | cons a pool =>
    cases pool with
    | nil =>
      obtain ⟨h1, h2⟩ := hd a (by simp)
      rw [show Pool.display [a] = a.display from rfl, splitOn_none (noNl_append.2 ⟨hpre, h1⟩)]
      simp only [List.cons_append, List.nil_append, readLines, hr]
      rw [if_neg (head_line name _ hw 35), takeWhile_name name _ hw, drop_name, if_neg h2]
      rfl
    | cons b pool =>
      have hmore : ∀ (p : Pool M), (∀ a ∈ p, noNl a.display ∧ a.display ≠ []) → ∀ (x : Str), '\n' ∉ x →
          splitOn '\n' (x ++ (p.map fun a => '\n' :: '\t' :: a.display).flatten) = x :: p.map fun a => '\t' :: a.display := by
        intro p
        induction p with
        | nil => intro _ x hx; simp [splitOn_none hx]
        | cons a p ih =>
          intro hp x hx
          rw [List.map_cons, List.flatten_cons, List.cons_append, splitOn_append, splitOn_none hx,
            ih (fun a ha => hp a (by simp [ha])) ('\t' :: a.display) (noNl_cons (by decide) (hp a (by simp)).1)]
          rfl
      have hread : ∀ (p : Pool M), readLines ((p.map fun a => '\t' :: a.display) ++ rest) = (p.map Amount.display, accs) := by
        intro p
        induction p with
        | nil => exact hr
        | cons a p ih => simp [readLines, ih]
      rw [show Pool.display (a :: b :: pool) = ((a :: b :: pool).map fun a => '\n' :: '\t' :: a.display).flatten from rfl,
        hmore _ hd _ hpre, List.cons_append]
      have hnil := head_line name [] hw 35
      have hnil2 := takeWhile_name name [] hw 35
      have hnil3 := drop_name name []
      rw [List.append_nil] at hnil hnil2 hnil3
      simp only [readLines, hread]
      rw [if_neg hnil, hnil2, hnil3, if_pos rfl]

theorem readReport_lines (shown : List (Str × Pool M)) (hw : ∀ p ∈ shown, isWord p.1) (hne : ∀ p ∈ shown, p.2 ≠ [])
    (hd : ∀ p ∈ shown, ∀ a ∈ p.2, noNl a.display ∧ a.display ≠ []) :
    readReport (shown.map fun p => padRight 35 p.1 ++ s%"    " ++ Pool.display p.2) =
      shown.map fun p => (p.1, p.2.map Amount.display) := by
  have key : ∀ (shown : List (Str × Pool M)), (∀ p ∈ shown, isWord p.1) → (∀ p ∈ shown, p.2 ≠ []) →
      (∀ p ∈ shown, ∀ a ∈ p.2, noNl a.display ∧ a.display ≠ []) →
      readLines (textLines (shown.map fun p => padRight 35 p.1 ++ s%"    " ++ Pool.display p.2)) =
        ([], shown.map fun p => (p.1, p.2.map Amount.display)) := by
    intro shown
    induction shown with
    | nil => intro _ _ _; rfl
    | cons p shown ih =>
      intro h1 h2 h3
      have := ih (fun p hp => h1 p (by simp [hp])) (fun p hp => h2 p (by simp [hp])) (fun p hp => h3 p (by simp [hp]))
      unfold textLines at this ⊢
      rw [List.map_cons, List.flatMap_cons]
      exact lines_of p.1 (h1 p (by simp)) p.2 (h2 p (by simp)) (h3 p (by simp)) _ _ this
  unfold readReport
  rw [key shown hw hne hd]

/-! ### Which accounts and which currencies there are -/

theorem poolAdd_syms (Q : Option Str → Prop) (p : Pool M) (a : Amount M) (hp : ∀ b ∈ p, Q b.sym) (ha : Q a.sym) :
    (∀ b ∈ Pool.add p a, Q b.sym) ∧ Pool.add p a ≠ [] := by
  induction p with
  | nil => simp [Pool.add, ha]
  | cons b p ih =>
    simp only [Pool.add]
    have hb := hp b (by simp)
    split
    · refine ⟨fun c hc => ?_, by simp⟩
      rcases List.mem_cons.1 hc with rfl | hc
      · exact hb
      · exact hp c (by simp [hc])
    · refine ⟨fun c hc => ?_, by simp⟩
      rcases List.mem_cons.1 hc with rfl | hc
      · exact hb
      · exact (ih fun c hc => hp c (by simp [hc])).1 c hc

theorem blankRest_sym (ps : List (Posting M)) (b b' : Amount M) (h : blankRest ps b = .ok b') : b'.sym = b.sym := by
  induction ps generalizing b with
  | nil => cases h; rfl
  | cons p ps ih =>
    simp only [blankRest] at h
    split at h
    · rename_i a _
      simp only [bind, Except.bind, Amount.subAssign] at h
      split at h
      · cases h
      · rename_i c hc
        split at hc
        · cases hc; exact (ih _ h).trans rfl
        · cases hc
    · exact ih _ h

theorem blankAmount_sym (Q : Option Str → Prop) (h0 : Q none) (e : Entry M)
    (he : ∀ p ∈ e.postings, ∀ a, p.amount = some a → Q a.sym) (b : Amount M) (h : e.blankAmount = .ok (some b)) : Q b.sym := by
  unfold Entry.blankAmount at h
  split at h
  · cases h
  · split at h
    · simp only [bind, Except.bind, pure, Except.pure] at h
      split at h
      · cases h
      · cases h; exact h0
    · split at h
      · cases h
      · rename_i p rest hd
        split at h
        · cases h
        · rename_i a ha
          simp only [bind, Except.bind, pure, Except.pure] at h
          split at h
          · cases h
          · rename_i c hc
            cases h
            rw [blankRest_sym _ _ _ hc]
            refine he p ?_ a ha
            exact (List.dropWhile_sublist _).subset (hd ▸ List.mem_cons_self)

theorem countAll_syms (Q : Option Str → Prop) (h0 : Q none) (k : Str) (es : List (Entry M))
    (he : ∀ e ∈ es, ∀ p ∈ e.postings, ∀ a, p.amount = some a → Q a.sym) (t : Option (Pool M))
    (ht : ∀ pool, t = some pool → (∀ b ∈ pool, Q b.sym) ∧ pool ≠ []) :
    ∀ pool, countAll k es t = some pool → (∀ b ∈ pool, Q b.sym) ∧ pool ≠ [] := by
  have step : ∀ (x : Entry M), (∀ p ∈ x.postings, ∀ a, p.amount = some a → Q a.sym) → ∀ p ∈ x.postings, ∀ t : Option (Pool M),
      (∀ pool, t = some pool → (∀ b ∈ pool, Q b.sym) ∧ pool ≠ []) →
      ∀ pool, countStep k x t p = some pool → (∀ b ∈ pool, Q b.sym) ∧ pool ≠ [] := by
    intro x hx p hp t ht pool h
    unfold countStep at h
    split at h
    · split at h
      · rename_i pool0 a ha
        cases h
        exact poolAdd_syms Q pool0 a (ht _ rfl).1 (hx p hp a ha)
      · rename_i pool0 ha
        split at h
        · rename_i b hb
          cases h
          exact poolAdd_syms Q pool0 b (ht _ rfl).1 (blankAmount_sym Q h0 x hx b hb)
        · cases h; exact ht _ rfl
      · rename_i a ha
        cases h
        exact poolAdd_syms Q [] a (by simp) (hx p hp a ha)
      · cases h
        exact poolAdd_syms Q [] _ (by simp) h0
    · exact ht pool h
  have entry : ∀ (x : Entry M), (∀ p ∈ x.postings, ∀ a, p.amount = some a → Q a.sym) → ∀ ps : List (Posting M),
      (∀ p ∈ ps, p ∈ x.postings) → ∀ t : Option (Pool M), (∀ pool, t = some pool → (∀ b ∈ pool, Q b.sym) ∧ pool ≠ []) →
      ∀ pool, ps.foldl (countStep k x) t = some pool → (∀ b ∈ pool, Q b.sym) ∧ pool ≠ [] := by
    intro x hx ps
    induction ps with
    | nil => intro _ t ht; exact ht
    | cons p ps ih =>
      intro hps t ht
      exact ih (fun q hq => hps q (by simp [hq])) _ (step x hx p (hps p (by simp)) t ht)
  induction es generalizing t with
  | nil => exact ht
  | cons x es ih =>
    exact ih (fun e hem => he e (by simp [hem])) _ (entry x (he x (by simp)) x.postings (fun _ h => h) t ht)

theorem countAll_some_iff (k : Str) (es : List (Entry M)) (t : Option (Pool M)) :
    (countAll k es t).isSome = true ↔ t.isSome = true ∨ ∃ e ∈ es, ∃ p ∈ e.postings, p.account = k := by
  have step : ∀ (x : Entry M) (p : Posting M) (t : Option (Pool M)),
      (countStep k x t p).isSome = true ↔ t.isSome = true ∨ p.account = k := by
    intro x p t
    unfold countStep
    split
    · rename_i hk
      simp only [hk, or_true, iff_true]
      split
      · rfl
      · split <;> rfl
      · rfl
      · rfl
    · rename_i hk; simp [hk]
  have entry : ∀ (x : Entry M) (ps : List (Posting M)) (t : Option (Pool M)),
      (ps.foldl (countStep k x) t).isSome = true ↔ t.isSome = true ∨ ∃ p ∈ ps, p.account = k := by
    intro x ps
    induction ps with
    | nil => intro t; simp
    | cons p ps ih =>
      intro t
      rw [List.foldl_cons, ih, step]
      simp [or_assoc]
  induction es generalizing t with
  | nil => simp [countAll]
  | cons x es ih =>
    have := ih (x.postings.foldl (countStep k x) t)
    unfold countAll at this ⊢
    rw [List.foldl_cons]
    refine this.trans ?_
    rw [entry]
    simp [or_assoc]

/-! ### Loaded ledgers have words as names -/

theorem Posting.parse_word (line : Str) (dec : Char) (accs : List Str) (p : Posting M) (h : Posting.parse line dec accs = .ok p) :
    isWord p.account := by
  unfold Posting.parse at h
  simp only at h
  split at h
  · cases h
  · split at h
    · simp only [bind, Except.bind, pure, Except.pure] at h
      split at h
      · cases h
      · rename_i e he
        cases h
        unfold EnvPosting.parse at he
        split at he
        · cases he
        · cases he
        · rename_i acc env rest hs
          simp only [bind, Except.bind, pure, Except.pure] at he
          split at he
          · cases he
          · cases he
            have : acc ∈ (splitWs (trim (removeComments line))).drop 1 := by rw [hs]; simp
            exact splitWs_isWord _ _ (List.mem_of_mem_drop this)
    · simp only [bind, Except.bind, pure, Except.pure] at h
      split at h
      · cases h
      · rename_i c hc
        cases h
        unfold Classic.parse at hc
        split at hc
        · cases hc
        · rename_i account toks hs
          simp only [bind, Except.bind, pure, Except.pure] at hc
          split at hc
          · cases hc
          · split at hc
            · cases hc
            · split at hc
              · cases hc
              · split at hc
                · cases hc
                  exact splitWs_isWord (trim (removeComments (trim (removeComments line)))) account (by rw [hs]; simp)
                · cases hc

theorem Entry.parse_words (env : Env) (chunk fmt : Str) (dec : Char) (accs : List Str) (e : Entry M)
    (h : Entry.parse env chunk fmt dec accs = .ok e) : ∀ p ∈ e.postings, isWord p.account := by
  have key : ∀ (ls : List Str) (ps : List (Posting M)), Entry.parsePostings dec accs ls = .ok ps → ∀ p ∈ ps, isWord p.account := by
    intro ls
    induction ls with
    | nil => intro ps h; cases h; simp
    | cons l ls ih =>
      intro ps h
      simp only [Entry.parsePostings] at h
      split at h
      · exact ih ps h
      · simp only [bind, Except.bind, pure, Except.pure] at h
        split at h
        · cases h
        · rename_i p hp
          split at h
          · cases h
          · rename_i qs hq
            cases h
            intro q hm
            rcases List.mem_cons.1 hm with rfl | hm
            · exact Posting.parse_word _ _ _ _ hp
            · exact ih qs hq q hm
  unfold Entry.parse at h
  simp only at h
  split at h
  · cases h
  · split at h
    · cases h
    · simp only [bind, Except.bind, pure, Except.pure] at h
      split at h
      · cases h
      · split at h
        · cases h
        · rename_i ps hps
          split at h
          · cases h
          · cases h
            exact key _ _ hps

theorem loaded_words (env : Env) (fuel : Nat) (w w' : World) (path : Str) (l : Ledger M)
    (h : Ledger.fromFile env fuel w path = .ok (l, w')) : ∀ e ∈ l.entries, ∀ p ∈ e.postings, isWord p.account := by
  obtain ⟨⟨is, hs⟩, _⟩ := fromFile_sound env fuel w w' path l h
  clear h
  generalize h0 : Ledger.new path = l0 at hs
  induction hs with
  | refl => subst h0; simp [Ledger.new]
  | tail _ hs ih =>
    cases hs with
    | account => exact ih
    | currency => exact ih
    | dateFormat => exact ih
    | entry l1 chunk e h h' =>
      obtain ⟨accs, _, rfl, _⟩ := addEntry_ok _ _ _ _ h'
      intro x hx
      rcases List.mem_append.1 ((stableSort_perm _ _).mem_iff.1 hx) with hx | hx
      · exact ih x hx
      · rw [List.mem_singleton] at hx
        subst hx
        exact Entry.parse_words _ _ _ _ _ _ h

/-! ### C107 -/

/-- The postings have currency symbols that can be printed and read back (no white space, digits, dashes, dots or
commas; C08). -/
def ReadableSymbols (es : List (Entry M)) : Prop :=
  ∀ e ∈ es, ∀ p ∈ e.postings, ∀ a, p.amount = some a → ∀ s, a.sym = some s → ValidSymbol '.' s

/-- The general case. -/
theorem report_reads_back (env : Env) (hord : FairOrder env.ord) (l : Ledger M) (ls : List Str)
    (hl : l.displayBalance env = .ok ls) (hw : ∀ e ∈ l.entries, ∀ p ∈ e.postings, isWord p.account)
    (hs : ReadableSymbols l.entries)
    (hf : ∀ k pool, countAll k l.entries none = some pool → ∀ a ∈ pool, FmtOk (round8 a.mag)) :
    (readReport ls).Pairwise (fun a b => strLt a.1 b.1 = true) ∧
    (∀ k, k ∈ (readReport ls).map Prod.fst ↔ ∃ e ∈ l.entries, ∃ p ∈ e.postings, p.account = k) ∧
    ∀ k ts, (k, ts) ∈ readReport ls → ∃ pool, countAll k l.entries none = some pool ∧
      List.Forall₂ (fun t (a : Amount M) => t = a.display ∧ Amount.parse t '.' = .ok ⟨round8 a.mag, a.sym⟩) ts pool := by
  obtain ⟨tot, shown, h1, h2, h3, rfl⟩ := C53_report_sorted env hord l ls hl
  have hn : (tot.map Prod.fst).Nodup := totalsLoop_nodup l.entries [] tot h1 (by simp)
  have hn' : (shown.map Prod.fst).Nodup := (h2.map Prod.fst).nodup_iff.2 hn
  have hget : ∀ k pool, (k, pool) ∈ shown → countAll k l.entries none = some pool := by
    intro k pool hm
    rw [← C51_exact_rule l tot h1 k]
    exact mapGet_of_mem hn (h2.mem_iff.1 hm)
  have hsyms : ∀ k pool, (k, pool) ∈ shown → (∀ b ∈ pool, ∀ s, b.sym = some s → ValidSymbol '.' s) ∧ pool ≠ [] := by
    intro k pool hm
    exact countAll_syms (fun o => ∀ s, o = some s → ValidSymbol '.' s) (by simp) k l.entries hs none (by simp) pool (hget k pool hm)
  have hname : ∀ k, k ∈ shown.map Prod.fst ↔ ∃ e ∈ l.entries, ∃ p ∈ e.postings, p.account = k := by
    intro k
    have := countAll_some_iff k l.entries none
    simp only [Option.isSome_none, Bool.false_eq_true, false_or] at this
    rw [← this, ← C51_exact_rule l tot h1 k, (h2.map Prod.fst).mem_iff]
    constructor
    · intro hm
      obtain ⟨⟨k', pool⟩, hm', rfl⟩ := List.mem_map.1 hm
      rw [mapGet_of_mem hn hm']; rfl
    · intro hm
      obtain ⟨pool, hp⟩ := Option.isSome_iff_exists.1 hm
      exact List.mem_map.2 ⟨_, mapGet_some_mem hp, rfl⟩
  have hread := readReport_lines shown (fun p hp => by
      obtain ⟨e, he, q, hq, hk⟩ := (hname p.1).1 (List.mem_map.2 ⟨p, hp, rfl⟩)
      rw [← hk]; exact hw e he q hq)
    (fun p hp => (hsyms p.1 p.2 hp).2)
    (fun p hp a ha => display_noNl (hf p.1 p.2 (hget p.1 p.2 hp) a ha) ((hsyms p.1 p.2 hp).1 a ha))
  rw [hread]
  refine ⟨?_, ?_, ?_⟩
  · rw [List.pairwise_map]
    have hnd : shown.Pairwise (fun a b => a.1 ≠ b.1) := List.pairwise_map.1 hn'
    refine (h3.and hnd).imp fun {a b} hab => ?_
    by_contra hlt
    exact hab.2 (strLt_total a.1 b.1 (by simpa using hlt) hab.1)
  · intro k
    rw [← hname k, List.map_map]
    rfl
  · intro k ts hm
    obtain ⟨⟨k', pool⟩, hm', he⟩ := List.mem_map.1 hm
    clear hm
    rename' hm' => hm
    cases he
    refine ⟨pool, hget _ _ hm, ?_⟩
    rw [List.forall₂_map_left_iff, List.forall₂_same]
    intro a ha
    exact ⟨rfl, Amount.parse_display (hf _ _ (hget _ _ hm) a ha) ((hsyms _ _ hm).1 a ha)⟩

/-- **C107.** In exact arithmetic: the balance report of a loaded journal, read line by line, has each account that
some posting names just once, in order of name, and for each currency of the account an amount that reads as what was
counted for it (C51), up to half a hundred-millionth. -/
theorem C107_report_reads_back (env : Env) (hord : FairOrder env.ord) (fuel : Nat) (w w' : World) (path : Str)
    (l : Ledger Rat) (h : Ledger.fromFile env fuel w path = .ok (l, w')) (hs : ReadableSymbols l.entries) (ls : List Str)
    (hl : l.displayBalance env = .ok ls) :
    (readReport ls).Pairwise (fun a b => strLt a.1 b.1 = true) ∧
    (∀ k, k ∈ (readReport ls).map Prod.fst ↔ ∃ e ∈ l.entries, ∃ p ∈ e.postings, p.account = k) ∧
    ∀ k ts, (k, ts) ∈ readReport ls → ∃ pool, countAll k l.entries none = some pool ∧
      List.Forall₂ (fun t (a : Amount Rat) => ∃ q : Rat, Amount.parse t '.' = .ok ⟨q, a.sym⟩ ∧ |q - a.mag| ≤ 1 / 200000000) ts pool := by
  obtain ⟨h1, h2, h3⟩ := report_reads_back env hord l ls hl (loaded_words env fuel w w' path l h) hs
    (fun k pool _ a _ => fmtOk_rat a.mag)
  refine ⟨h1, h2, fun k ts hm => ?_⟩
  obtain ⟨pool, h4, h5⟩ := h3 k ts hm
  refine ⟨pool, h4, ?_⟩
  have hq : ∀ b ∈ pool, ∀ s, b.sym = some s → ValidSymbol '.' s :=
    (countAll_syms (fun o => ∀ s, o = some s → ValidSymbol '.' s) (by simp) k l.entries hs none (by simp) pool h4).1
  clear h4 hm
  induction h5 with
  | nil => exact .nil
  | cons hx _ ih =>
    refine .cons ?_ (ih fun b hb => hq b (by simp [hb]))
    obtain ⟨q, k1, _, k2⟩ := C08_round_trip_exact _ (hq _ List.mem_cons_self)
    exact ⟨q, by rw [hx.1]; exact k1, k2⟩

/-- **C107.** In the program's arithmetic, if the amounts to be printed are finite: each amount reads as what was
counted, rounded to 8 decimals. -/
theorem C107_report_reads_back_f64 (env : Env) (hord : FairOrder env.ord) (fuel : Nat) (w w' : World) (path : Str)
    (l : Ledger F64) (h : Ledger.fromFile env fuel w path = .ok (l, w')) (hs : ReadableSymbols l.entries)
    (hfin : ∀ k pool, countAll k l.entries none = some pool → ∀ a ∈ pool, (round8 a.mag).finite = true) (ls : List Str)
    (hl : l.displayBalance env = .ok ls) :
    (readReport ls).Pairwise (fun a b => strLt a.1 b.1 = true) ∧
    (∀ k, k ∈ (readReport ls).map Prod.fst ↔ ∃ e ∈ l.entries, ∃ p ∈ e.postings, p.account = k) ∧
    ∀ k ts, (k, ts) ∈ readReport ls → ∃ pool, countAll k l.entries none = some pool ∧
      List.Forall₂ (fun t (a : Amount F64) => Amount.parse t '.' = .ok ⟨round8 a.mag, a.sym⟩) ts pool := by
  obtain ⟨h1, h2, h3⟩ := report_reads_back env hord l ls hl (loaded_words env fuel w w' path l h) hs
    (fun k pool hk a ha => fmtOk_f64 (hfin k pool hk a ha))
  refine ⟨h1, h2, fun k ts hm => ?_⟩
  obtain ⟨pool, h4, h5⟩ := h3 k ts hm
  exact ⟨pool, h4, h5.imp fun _ _ h => h.2⟩

/-! ### An example -/

def exBalanceText : String :=
  "account assets:cash\naccount b\n2024/01/05 * x\n assets:cash 10\n b -10\n2024/01/06 * y\n assets:cash €2 @ 3\n b -6\n"

/-- A journal that meets the conditions, and its report: an account with two currencies has its amounts on lines of
their own. -/
example : ∃ l : Ledger Rat, loadText Rat exBalanceText = .ok l ∧
    ((∀ e ∈ l.entries, ∀ p ∈ e.postings, ∀ a, p.amount = some a → ∀ s, a.sym = some s → s = s%"€") ∧
      ∃ ls, l.displayBalance (stdEnv june15) = .ok ls ∧
        (ls = [padRight 39 s%"assets:cash" ++ s%"\n\t 10\n\t 2 €", padRight 39 s%"b" ++ s%"-16"] ∧
          readReport ls = [(s%"assets:cash", [s%" 10", s%" 2 €"]), (s%"b", [s%"-16"])])) := by
  decide +kernel

end Silverfox
