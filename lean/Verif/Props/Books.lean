import Verif.Props.Order
import Verif.Props.Exact
import Verif.Props.Register

/-
C97: do the balances of all accounts add up to zero?
C98: does the register end with the balances of the balance report?
-/

namespace Silverfox

set_option linter.unusedSectionVars false

/-- Specification: the sum of the balances that the report shows for the accounts `f`, in the currency
`s`. -/
def grandTotal (f : Str → Bool) (tot : List (Str × Pool Rat)) (s : Option Str) : Rat :=
  ((tot.filter fun p => f p.1).map fun p => (p.2.only s).mag).sum

/-- Specification: what a posting moves in the currency `s`; a blank one moves what was inferred for
its entry. -/
def Entry.moved (x : Entry Rat) (p : Posting Rat) (s : Option Str) : Rat :=
  match p.amount with
  | some a => if a.sym = s then a.mag else 0
  | none => match x.blankAmount with
    | .ok (some b) => if b.sym = s then b.mag else 0
    | _ => 0

/-- Specification: the postings of an entry, envelope postings among them, sum to zero in `s`. -/
def Entry.Balances (x : Entry Rat) (s : Option Str) : Prop :=
  (x.postings.map fun p => x.moved p s).sum = 0

instance (x : Entry Rat) (s : Option Str) : Decidable (x.Balances s) := by
  unfold Entry.Balances; infer_instance

/-- Specification: those postings of a journal, with their entries, before which no posting names the
same account. -/
def firstPostings (seen : List Str) : List (Entry Rat × Posting Rat) → List (Entry Rat × Posting Rat)
  | [] => []
  | q :: qs =>
    if q.2.account ∈ seen then firstPostings seen qs
    else q :: firstPostings (q.2.account :: seen) qs

/-- All postings of a list of entries, each with its entry. -/
def postingsOf (es : List (Entry Rat)) : List (Entry Rat × Posting Rat) :=
  es.flatMap fun x => x.postings.map fun p => (x, p)

/-- What the report leaves out of the accounts `f`: blank postings that are the first of their
account. -/
def leftOut (f : Str → Bool) (seen : List Str) (qs : List (Entry Rat × Posting Rat)) (s : Option Str) :
    Rat :=
  (((firstPostings seen qs).filter fun q => q.2.amount.isNone && f q.2.account).map fun q =>
    q.1.moved q.2 s).sum

theorem grandTotal_cons (f : Str → Bool) (k : Str) (v : Pool Rat) (tot : List (Str × Pool Rat))
    (s : Option Str) :
    grandTotal f ((k, v) :: tot) s = (if f k = true then Pool.bal v s else 0) + grandTotal f tot s := by
  unfold grandTotal
  cases hf : f k with
  | true => rw [List.filter_cons_of_pos (by simpa using hf)]; rfl
  | false => rw [List.filter_cons_of_neg (by simp [hf])]; simp

theorem grandTotal_insert (f : Str → Bool) (tot : List (Str × Pool Rat)) (k : Str) (v : Pool Rat)
    (s : Option Str) :
    grandTotal f (mapInsert tot k v) s = grandTotal f tot s +
      (if f k = true then Pool.bal v s - ((mapGet tot k).map fun p => Pool.bal p s).getD 0 else 0) := by
  induction tot with
  | nil =>
    simp only [mapInsert, grandTotal_cons, mapGet, List.find?_nil, Option.map_none, Option.getD_none]
    split <;> ring
  | cons x tot ih =>
    obtain ⟨k', v'⟩ := x
    by_cases hk : k' = k
    · subst hk
      have h1 : mapGet ((k', v') :: tot) k' = some v' := by simp [mapGet]
      simp only [mapInsert, if_true, grandTotal_cons, h1, Option.map_some, Option.getD_some]
      split <;> ring
    · have h1 : mapGet ((k', v') :: tot) k = mapGet tot k := by simp [mapGet, hk]
      rw [h1]
      simp only [mapInsert, hk, if_false, grandTotal_cons, ih]
      ring

theorem mem_keys_iff {α : Type} (tot : List (Str × α)) (k : Str) :
    k ∈ tot.map Prod.fst ↔ (mapGet tot k).isSome = true := by
  simp only [mapGet, Option.isSome_map, List.find?_isSome, List.mem_map, beq_iff_eq]

theorem keys_insert {α : Type} (tot : List (Str × α)) (k k' : Str) (v : α) :
    k' ∈ (mapInsert tot k v).map Prod.fst ↔ k' = k ∨ k' ∈ tot.map Prod.fst := by
  rw [mem_keys_iff, mem_keys_iff, mapGet_insert]
  by_cases h : k' = k
  · simp [h]
  · simp [h]

/-- One posting more: the sum of the balances grows by what the posting moves, unless it is blank and
the first of its account. -/
theorem grandTotal_step (f : Str → Bool) (x : Entry Rat) (p : Posting Rat) (tot tot' : List (Str × Pool Rat))
    (s : Option Str) (h : Ledger.totalsStep x p tot = .ok tot') :
    grandTotal f tot' s = grandTotal f tot s +
      (if f p.account = true then
        (if p.account ∉ tot.map Prod.fst ∧ p.amount = none then 0 else x.moved p s) else 0) ∧
    ∀ k, k ∈ tot'.map Prod.fst ↔ k = p.account ∨ k ∈ tot.map Prod.fst := by
  unfold Ledger.totalsStep at h
  unfold Entry.moved
  cases hg : mapGet tot p.account with
  | some pool =>
    have hm : p.account ∈ tot.map Prod.fst := by rw [mem_keys_iff, hg]; rfl
    simp only [hg] at h
    cases ha : p.amount with
    | some a =>
      simp only [ha] at h
      cases h
      refine ⟨?_, fun k => keys_insert ..⟩
      rw [grandTotal_insert, hg, Pool.bal_add]
      simp only [Amount.inSym, Option.map_some, Option.getD_some, reduceCtorEq, and_false, if_false,
        add_sub_cancel_left]
    | none =>
      simp only [ha, bind, Except.bind, pure, Except.pure] at h
      cases hb : x.blankAmount with
      | error f => simp [hb] at h
      | ok b =>
        simp only [hb] at h
        cases b with
        | none =>
          cases h
          refine ⟨by simp only [hm, not_true_eq_false, false_and, ite_self]; ring,
            fun k => ⟨.inr, ?_⟩⟩
          rintro (rfl | h)
          · exact hm
          · exact h
        | some b =>
          cases h
          refine ⟨?_, fun k => keys_insert ..⟩
          rw [grandTotal_insert, hg, Pool.bal_add]
          simp only [Amount.inSym, Option.map_some, Option.getD_some, hm, not_true_eq_false, false_and,
            if_false, add_sub_cancel_left]
  | none =>
    simp only [hg] at h
    have hm : p.account ∉ tot.map Prod.fst := by rw [mem_keys_iff, hg]; simp
    have one : ∀ a : Amount Rat, Pool.bal (Pool.ofAmount a) s = if a.sym = s then a.mag else 0 := by
      intro a
      have := Pool.bal_add [] a s
      have e1 : Pool.add [] a = Pool.ofAmount a := by simp [Pool.add, Pool.ofAmount]
      rw [e1] at this
      rw [this]
      show 0 + _ = _
      rw [zero_add]; rfl
    cases ha : p.amount with
    | some a =>
      simp only [ha] at h
      cases h
      refine ⟨?_, fun k => keys_insert ..⟩
      rw [grandTotal_insert, hg, one]
      simp only [Option.map_none, Option.getD_none, reduceCtorEq, and_false, if_false, sub_zero]
    | none =>
      simp only [ha] at h
      cases h
      refine ⟨?_, fun k => keys_insert ..⟩
      rw [grandTotal_insert, hg, one]
      simp only [Option.map_none, Option.getD_none, hm, not_false_eq_true, and_self, if_true, sub_zero]
      rw [show (Amount.zero : Amount Rat).mag = 0 from rfl, ite_self]

theorem leftOut_congr (a b : List Str) (qs : List (Entry Rat × Posting Rat))
    (h : ∀ k, k ∈ a ↔ k ∈ b) : firstPostings a qs = firstPostings b qs := by
  induction qs generalizing a b with
  | nil => rfl
  | cons q qs ih =>
    unfold firstPostings
    simp only [h]
    rw [ih a b h, ih (q.2.account :: a) (q.2.account :: b) (by intro k; simp [h])]

/-- What the postings of an entry move in the accounts `f`. -/
def Entry.movedIn (f : Str → Bool) (x : Entry Rat) (s : Option Str) : Rat :=
  ((x.postings.filter fun p => f p.account).map fun p => x.moved p s).sum

theorem movedIn_cons (f : Str → Bool) (x : Entry Rat) (p : Posting Rat) (ps : List (Posting Rat))
    (s : Option Str) :
    (((p :: ps).filter fun p => f p.account).map fun p => x.moved p s).sum =
      (if f p.account = true then x.moved p s else 0) +
      ((ps.filter fun p => f p.account).map fun p => x.moved p s).sum := by
  cases hf : f p.account with
  | true => rw [List.filter_cons_of_pos (by simpa using hf)]; simp
  | false => rw [List.filter_cons_of_neg (by simp [hf])]; simp

theorem grandTotal_entry (f : Str → Bool) (x : Entry Rat) (ps : List (Posting Rat))
    (rest : List (Entry Rat × Posting Rat))
    (tot tot' : List (Str × Pool Rat)) (s : Option Str) (h : Ledger.totalsEntry x ps tot = .ok tot') :
    grandTotal f tot' s = grandTotal f tot s
      + ((ps.filter fun p => f p.account).map fun p => x.moved p s).sum
      - (leftOut f (tot.map Prod.fst) (ps.map (fun p => (x, p)) ++ rest) s
          - leftOut f (tot'.map Prod.fst) rest s) := by
  induction ps generalizing tot with
  | nil => cases h; simp
  | cons p ps ih =>
    simp only [Ledger.totalsEntry, bind, Except.bind] at h
    split at h
    · cases h
    · rename_i t1 h1
      obtain ⟨g, hk⟩ := grandTotal_step f x p tot t1 s h1
      rw [ih t1 h, g]
      have hl : leftOut f (tot.map Prod.fst) ((p :: ps).map (fun p => (x, p)) ++ rest) s =
          (if f p.account = true then
            (if p.account ∉ tot.map Prod.fst ∧ p.amount = none then x.moved p s else 0) else 0) +
          leftOut f (t1.map Prod.fst) (ps.map (fun p => (x, p)) ++ rest) s := by
        unfold leftOut
        simp only [List.map_cons, List.cons_append, firstPostings]
        by_cases hm : p.account ∈ tot.map Prod.fst
        · rw [leftOut_congr (t1.map Prod.fst) (tot.map Prod.fst)]
          · simp [hm]
          · intro k
            rw [hk]
            constructor
            · rintro (rfl | h)
              · exact hm
              · exact h
            · exact .inr
        · rw [leftOut_congr (t1.map Prod.fst) (p.account :: tot.map Prod.fst) _ (by intro k; simp [hk])]
          simp only [hm, if_false, not_false_eq_true, true_and]
          cases hf : f p.account <;> cases ha : p.amount <;> simp [ha, hf]
      rw [hl, movedIn_cons]
      split
      · split <;> ring
      · ring

theorem grandTotal_loop (f : Str → Bool) (es : List (Entry Rat)) (tot tot' : List (Str × Pool Rat))
    (s : Option Str) (h : Ledger.totalsLoop es tot = .ok tot') :
    grandTotal f tot' s = grandTotal f tot s + (es.map fun x => x.movedIn f s).sum
      - leftOut f (tot.map Prod.fst) (postingsOf es) s := by
  induction es generalizing tot with
  | nil => cases h; simp [leftOut, postingsOf, firstPostings]
  | cons x es ih =>
    simp only [Ledger.totalsLoop, bind, Except.bind] at h
    split at h
    · cases h
    · rename_i t1 h1
      rw [ih t1 h, grandTotal_entry f x x.postings (postingsOf es) tot t1 s h1]
      have : postingsOf (x :: es) = x.postings.map (fun p => (x, p)) ++ postingsOf es := by
        simp [postingsOf]
      rw [this, List.map_cons, List.sum_cons]
      unfold Entry.movedIn
      ring

/-- C97, C98, the exact rule: in every journal and in every currency, the sum of the balances shown for
any accounts is the sum of what all their postings move, less the blank postings that are the first of
their account. -/
theorem C97_exact_rule (l : Ledger Rat) (tot : List (Str × Pool Rat)) (h : l.totals = .ok tot)
    (f : Str → Bool) (s : Option Str) :
    grandTotal f tot s = (l.entries.map fun x => x.movedIn f s).sum
      - leftOut f [] (postingsOf l.entries) s := by
  rw [grandTotal_loop f l.entries [] tot s h]
  simp [grandTotal]

theorem firstPostings_find (seen : List Str) (qs : List (Entry Rat × Posting Rat))
    (q : Entry Rat × Posting Rat) (h : q ∈ firstPostings seen qs) :
    q.2.account ∉ seen ∧ (qs.map Prod.snd).find? (fun p => p.account == q.2.account) = some q.2 := by
  induction qs generalizing seen with
  | nil => cases h
  | cons r qs ih =>
    unfold firstPostings at h
    split at h
    · rename_i hr
      obtain ⟨h1, h2⟩ := ih seen h
      refine ⟨h1, ?_⟩
      have : r.2.account ≠ q.2.account := fun e => h1 (e ▸ hr)
      rw [List.map_cons, List.find?_cons_of_neg (by simpa using this), h2]
    · rename_i hr
      rcases List.mem_cons.1 h with rfl | h
      · exact ⟨hr, by simp⟩
      · obtain ⟨h1, h2⟩ := ih _ h
        have hn : r.2.account ≠ q.2.account := fun e => h1 (by rw [e]; simp)
        refine ⟨fun hc => h1 (List.mem_cons_of_mem _ hc), ?_⟩
        rw [List.map_cons, List.find?_cons_of_neg (by simpa using hn), h2]

theorem leftOut_zero (f : Str → Bool) (es : List (Entry Rat)) (s : Option Str)
    (hf : ∀ k, f k = true → FirstHasAmount k es) : leftOut f [] (postingsOf es) s = 0 := by
  unfold leftOut
  have : (firstPostings [] (postingsOf es)).filter (fun q => q.2.amount.isNone && f q.2.account) = [] := by
    rw [List.filter_eq_nil_iff]
    intro q hq
    have := (firstPostings_find [] _ q hq).2
    have e : (postingsOf es).map Prod.snd = es.flatMap Entry.postings := by
      simp [postingsOf, List.map_flatMap, Function.comp_def]
    rw [e] at this
    cases hfq : f q.2.account with
    | false => simp
    | true =>
      have := hf q.2.account hfq q.2 this
      cases hq2 : q.2.amount <;> simp_all
  rw [this]; rfl

/-- C97, where it holds. Full statement: if every entry balances in a currency, the balances of all
accounts sum to zero in that currency. Proved, over the rationals, for journals in which no account
begins with a blank posting; `C97_first_posting_blank` shows that the others need not add up. -/
theorem C97_books_balance_partial (l : Ledger Rat) (tot : List (Str × Pool Rat))
    (h : l.totals = .ok tot) (s : Option Str) (hb : ∀ x ∈ l.entries, x.Balances s)
    (hf : ∀ k, FirstHasAmount k l.entries) : grandTotal (fun _ => true) tot s = 0 := by
  rw [C97_exact_rule l tot h _ s, leftOut_zero _ _ _ fun k _ => hf k]
  have : ∀ es : List (Entry Rat), (∀ x ∈ es, x.Balances s) →
      (es.map fun x => x.movedIn (fun _ => true) s).sum = 0 := by
    intro es
    induction es with
    | nil => intro _; rfl
    | cons x es ih =>
      intro hx
      rw [List.map_cons, List.sum_cons, ih fun y hy => hx y (by simp [hy])]
      have := hx x (by simp)
      unfold Entry.Balances at this
      simp [Entry.movedIn, this]
  rw [this _ hb]; ring

/-- C97: an entry in one currency with one blank posting always balances, in every currency, envelope
postings counted in. -/
theorem C97_blank_entries_balance (e : Entry Rat) (s : Option Str)
    (pre post : List (Posting Rat)) (p : Posting Rat)
    (hps : e.postings = pre ++ p :: post) (hp : p.amount = none)
    (hrest : ∀ q ∈ pre ++ post, ∃ a, q.amount = some a ∧ a.sym = s) (hne : pre ++ post ≠ [])
    (s' : Option Str) : e.Balances s' := by
  obtain ⟨b, hb, hs, ho, -⟩ := C13_off_by_the_envelopes e s pre post p hps hp hrest hne
  have hall : (e.postings.map fun q => (q.amount.getD b).mag).sum = 0 := by
    rw [entry_split, ho]; ring
  have hsym : ∀ q ∈ e.postings, (q.amount.getD b).sym = s := by
    intro q hq
    rw [hps] at hq
    have : q ∈ pre ++ post ∨ q = p := by
      simp only [List.mem_append, List.mem_cons] at hq ⊢; tauto
    rcases this with hq | rfl
    · obtain ⟨a, h1, h2⟩ := hrest q hq
      rw [h1]; exact h2
    · rw [hp]; exact hs
  have hmoved : ∀ q : Posting Rat, (q.amount.getD b).sym = s →
      e.moved q s' = if s = s' then (q.amount.getD b).mag else 0 := by
    intro q hq
    unfold Entry.moved
    cases ha : q.amount with
    | some a => simp only [ha, Option.getD_some] at hq ⊢; rw [hq]
    | none => simp only [ha, hb, Option.getD_none] at hq ⊢; rw [hq]
  unfold Entry.Balances
  rw [List.map_congr_left fun q hq => hmoved q (hsym q hq)]
  by_cases hss : s = s'
  · simpa [hss] using hall
  · simp [hss]

/-- C97 is false: when an account begins with a blank posting, money appears from nowhere. -/
theorem C97_first_posting_blank :
    ∃ l, loadText Rat "account a\naccount b\n2024/01/02 * y\n a 10\n b\n" = .ok l ∧
      (∀ x ∈ l.entries, x.Balances none) ∧
      ∃ tot, l.totals = .ok tot ∧ grandTotal (fun _ => true) tot none = 10 := by decide +kernel

/-- A journal with several entries, one of them with a blank posting, that adds up to zero. -/
example : ∃ l, loadText Rat "account a\naccount b\n2024/01/05 * x\n a 1\n b -1\n2024/01/02 * y\n a 2\n b -2
2024/01/05 * z\n a 3\n b" = .ok l ∧ (∀ x ∈ l.entries, x.Balances none) ∧
    (∀ p ∈ (firstPostings [] (postingsOf l.entries)), p.2.amount.isSome = true) ∧
    ∃ tot, l.totals = .ok tot ∧ grandTotal (fun _ => true) tot none = 0 ∧ mapGet tot s%"a" = some [⟨6, none⟩] := by
  decide +kernel

/-! ### C98 -/

theorem movedIn_focus (am : Option Str) (s : Option Str) (x : Entry Rat) :
    x.movedIn (isFocused am) s = netChange am s x := by
  unfold Entry.movedIn netChange Entry.focusAmounts
  rw [List.map_map]
  have h1 : (x.postings.filter fun p => decide (InFocus am p.account)) =
      x.postings.filter fun p => isFocused am p.account := by
    apply List.filter_congr
    intro p _
    have := isFocused_iff am p.account
    cases hf : isFocused am p.account <;> simp_all
  rw [h1]
  congr 1
  apply List.map_congr_left
  intro p _
  show x.moved p s = (fun a : Amount Rat => if a.sym = s then a.mag else 0) (x.valueOf p)
  generalize hg : (fun a : Amount Rat => if a.sym = s then a.mag else 0) = g
  have h0 : g Amount.zero = 0 := by rw [← hg]; exact ite_self _
  have hm : x.moved p s = match p.amount with
      | some a => g a
      | none => match x.blankAmount with
        | .ok (some b) => g b
        | _ => 0 := by rw [← hg]; rfl
  rw [hm]
  unfold Entry.valueOf
  cases p.amount with
  | some a => rfl
  | none =>
    cases x.blankAmount with
    | error f => exact h0.symm
    | ok b =>
      cases b with
      | none => exact h0.symm
      | some b => rfl

/-- An entry that is not shown changes nothing. -/
theorem netChange_hidden (am : Option Str) (s : Option Str) (x : Entry Rat) (h : ¬ x.Changes am) :
    netChange am s x = 0 := by
  rw [← change_rat]
  cases hc : x.change am s with
  | none => rfl
  | some m =>
    apply Classical.byContradiction
    intro hm
    apply h
    refine ⟨s, m, hc, ?_⟩
    have : ¬ m = 0 := hm
    simp [Mag.eq, Mag.zero, this]

open Classical in
/-- Hidden entries do not matter for the sum of the changes. -/
theorem sum_shown (am : Option Str) (s : Option Str) (es : List (Entry Rat)) :
    ((shownBy none none am es).map (netChange am s)).sum = (es.map (netChange am s)).sum := by
  have hw : ∀ d, Within none none d := fun d => ⟨fun x hx => (by cases hx), fun x hx => (by cases hx)⟩
  induction es with
  | nil => rfl
  | cons x es ih =>
    unfold shownBy at ih ⊢
    by_cases hx : x.Changes am
    · rw [List.filter_cons_of_pos (by simp [hw, hx]), List.map_cons, List.sum_cons, ih, List.map_cons,
        List.sum_cons]
    · rw [List.filter_cons_of_neg (by simp [hx]), ih, List.map_cons, List.sum_cons,
        netChange_hidden am s x hx, zero_add]

/-- C98, the exact rule: the changes that the register shows sum to the balances that the balance
report shows for the accounts in focus, plus the blank postings that are the first of their account. -/
theorem C98_exact_rule (l : Ledger Rat) (tot : List (Str × Pool Rat)) (h : l.totals = .ok tot)
    (am : Option Str) (s : Option Str) :
    ((shownBy none none am l.entries).map (netChange am s)).sum =
      grandTotal (isFocused am) tot s + leftOut (isFocused am) [] (postingsOf l.entries) s := by
  rw [C97_exact_rule l tot h, sum_shown, List.map_congr_left fun x _ => movedIn_focus am s x]
  ring

theorem EachUpTo.split {P : List (Entry Rat) → Entry Rat → List Str → Prop}
    (pre post before : List (Entry Rat)) (x : Entry Rat) (bs : List (List Str))
    (h : EachUpTo P before (pre ++ x :: post) bs) :
    ∃ bs1 b bs2, bs = bs1 ++ b :: bs2 ∧ bs1.length = pre.length ∧ bs2.length = post.length ∧
      P (before ++ pre ++ [x]) x b := by
  induction pre generalizing before bs with
  | nil =>
    cases bs with
    | nil => exact absurd h (by simp [EachUpTo])
    | cons b bs =>
      refine ⟨[], b, bs, rfl, rfl, ?_, by simpa using h.1⟩
      have h2 := h.2
      clear h
      generalize before ++ [x] = bf at h2
      induction post generalizing bf bs with
      | nil => cases bs <;> simp_all [EachUpTo]
      | cons y post ih =>
        cases bs with
        | nil => exact absurd h2 (by simp [EachUpTo])
        | cons b' bs => simp [ih bs _ h2.2]
  | cons y pre ih =>
    cases bs with
    | nil => exact absurd h (by simp [EachUpTo])
    | cons b bs =>
      obtain ⟨bs1, b', bs2, h1, h2, h3, h4⟩ := ih _ _ h.2
      exact ⟨b :: bs1, b', bs2, by simp [h1], by simp [h2], h3, by simpa using h4⟩

theorem netChange_absent (am : Option Str) (s : Option Str) (y : Entry Rat)
    (h : s ∉ (y.focusAmounts am).map Amount.sym) : netChange am s y = 0 := by
  unfold netChange
  have : ∀ as : List (Amount Rat), s ∉ as.map Amount.sym →
      (as.map fun a => if a.sym = s then a.mag else 0).sum = 0 := by
    intro as
    induction as with
    | nil => intro _; rfl
    | cons a as ih =>
      intro hs
      simp only [List.map_cons, List.mem_cons, not_or] at hs
      rw [List.map_cons, List.sum_cons, ih hs.2, if_neg fun e => hs.1 e.symm, zero_add]
  exact this _ h

/-- C98, where it holds. Full statement: the register of all days ends, in each currency, with the
balance that the balance report shows for the accounts in focus (the sum of their balances if they are
several). Here `x` is the last entry shown that posts the currency `s`. Proved, over the rationals,
for accounts that do not begin with a blank posting; `C98_first_posting_blank` shows that the others may
differ. -/
theorem C98_register_ends_with_balance_partial (env : Env) (terminal : Bool) (l : Ledger Rat)
    (tot : List (Str × Pool Rat)) (h : l.totals = .ok tot) (fmt : Str) (am : Option Str) (ls : List Str)
    (hd : Register.display env terminal l.entries fmt none none am = .ok ls) (s : Option Str)
    (hf : ∀ k, InFocus am k → FirstHasAmount k l.entries)
    (pre post : List (Entry Rat)) (x : Entry Rat)
    (hsh : shownBy none none am l.entries = pre ++ x :: post)
    (hx : s ∈ (x.focusAmounts am).map Amount.sym)
    (hlast : ∀ y ∈ post, s ∉ (y.focusAmounts am).map Amount.sym) :
    ∃ (above : List (List Str)) (block : List Str) (below : List (List Str)) (line : Str), ls = above.flatten ++ block ++ below.flatten ∧
      above.length = pre.length ∧ below.length = post.length ∧ line ∈ block ∧
      EndsWith s (netChange am s x) (grandTotal (isFocused am) tot s) line := by
  obtain ⟨bs, hls, he⟩ := C74_exact env terminal l.entries fmt none none am ls hd
  rw [hsh] at he
  obtain ⟨bs1, b, bs2, hb, h1, h2, hP⟩ := EachUpTo.split pre post [] x bs he
  have hmem : s ∈ firstSeen ((x.focusAmounts am).map Amount.sym) := by
    exact ((firstSeen_aux _ [] List.nodup_nil).2 s).2 (.inr hx)
  have hline : ∃ line ∈ b, EndsWith s (netChange am s x) (([] ++ pre ++ [x]).map (netChange am s)).sum line := by
    clear hb
    generalize firstSeen ((x.focusAmounts am).map Amount.sym) = ss at hP hmem
    induction hP with
    | nil => cases hmem
    | cons hab _ ih =>
      rcases List.mem_cons.1 hmem with rfl | hm
      · exact ⟨_, by simp, hab⟩
      · obtain ⟨line, hl, hl2⟩ := ih hm
        exact ⟨line, by simp [hl], hl2⟩
  obtain ⟨line, hl, hends⟩ := hline
  refine ⟨bs1, b, bs2, line, by rw [hls, hb]; simp, h1, h2, hl, ?_⟩
  have hrule := C98_exact_rule l tot h am s
  rw [leftOut_zero _ _ _ fun k hk => hf k ((isFocused_iff _ _).1 hk), add_zero, hsh] at hrule
  have hpost : (post.map (netChange am s)).sum = 0 := by
    have : ∀ ys : List (Entry Rat), (∀ y ∈ ys, s ∉ (y.focusAmounts am).map Amount.sym) →
        (ys.map (netChange am s)).sum = 0 := by
      intro ys
      induction ys with
      | nil => intro _; rfl
      | cons y ys ih =>
        intro hy
        rw [List.map_cons, List.sum_cons, ih fun z hz => hy z (by simp [hz]),
          netChange_absent am s y (hy y (by simp)), zero_add]
    exact this post hlast
  have : (([] ++ pre ++ [x]).map (netChange am s)).sum = grandTotal (isFocused am) tot s := by
    rw [← hrule]
    simp [hpost]
  rwa [this] at hends

/-- The lines of the balance report of a journal. -/
def balanceOf (text : String) : Res (List Str) := do
  let l ← loadText F64 text
  l.displayBalance (stdEnv june15)

/-- Two entries that pay from the assets: the register of the assets ends with the balance. -/
example :
    registerOf "account assets\naccount shop\n2024/01/02 * a\n assets -5\n shop 5\n2024/01/03 * b\n shop 2\n assets\n"
      none none none = .ok [s%"2024/01/02 * a  assets -> shop  -5  -5", s%"2024/01/03 * b  assets -> shop  -2  -7"] ∧
    balanceOf "account assets\naccount shop\n2024/01/02 * a\n assets -5\n shop 5\n2024/01/03 * b\n shop 2\n assets\n"
      = .ok [s%"assets                                 -7", s%"shop                                    7"] := by
  decide +kernel

/-- C98 is false: when an account begins with a blank posting, the register and the balance report
differ. -/
theorem C98_first_posting_blank :
    registerOf "account assets\naccount shop\n2024/01/02 * a\n shop 5\n assets\n2024/01/03 * b\n shop 2\n assets\n"
      none none none = .ok [s%"2024/01/02 * a  assets -> shop  -5  -5", s%"2024/01/03 * b  assets -> shop  -2  -7"] ∧
    balanceOf "account assets\naccount shop\n2024/01/02 * a\n shop 5\n assets\n2024/01/03 * b\n shop 2\n assets\n"
      = .ok [s%"assets                                 -2", s%"shop                                    7"] := by
  decide +kernel

end Silverfox
