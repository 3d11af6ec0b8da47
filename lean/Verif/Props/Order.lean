import Verif.Props.Ledger

/-
C53: the order of the hash map.
-/

namespace Silverfox

set_option linter.unusedSectionVars false
variable {M : Type} [Mag M]

/-- An order in which maps are walked. -/
abbrev HashOrder := {α : Type} → List α → List α

/-- Specification: every element is met once. -/
def FairOrder (o : HashOrder) : Prop := ∀ (α : Type) (l : List α), (@o α l).Perm l

/-- The same environment with another hash order. -/
def Env.withOrd (env : Env) (o : HashOrder) : Env := { env with ord := o }

/-! ### Text is read without looking at the map -/

theorem parseLines_withOrd (env : Env) (o : HashOrder) (dec : Char) (fmt : Str) (ls : List Str)
    (a : Account M) (chunk : Str) :
    Account.parseLines (env.withOrd o) dec fmt ls a chunk = Account.parseLines env dec fmt ls a chunk := by
  induction ls generalizing a chunk with
  | nil => rfl
  | cons l ls ih =>
    simp only [Account.parseLines]
    split
    · show (Account.flush env a chunk dec fmt >>= _) = _
      simp only [bind, Except.bind]
      split
      · rfl
      · exact ih _ _
    · exact ih _ _

theorem Account.parse_withOrd (env : Env) (o : HashOrder) (chunk : Str) (dec : Char) (fmt : Str) :
    (Account.parse (env.withOrd o) chunk dec fmt : Res (Account M)) = Account.parse env chunk dec fmt := by
  unfold Account.parse
  split
  · rfl
  · simp only [bind, Except.bind]
    split
    · rfl
    · exact parseLines_withOrd env o dec fmt _ _ _

theorem Entry.parse_withOrd (env : Env) (o : HashOrder) (chunk fmt : Str) (dec : Char)
    (accs : List Str) :
    (Entry.parse (env.withOrd o) chunk fmt dec accs : Res (Entry M)) = Entry.parse env chunk fmt dec accs := rfl

/-! ### Loading -/

theorem processAll_exists (today : Date) (e : Entry M) (as : List (Str × Account M)) :
    (∃ r, Ledger.processAll today e as = .ok r) ↔
      ∀ p ∈ as, ∃ a', Account.processEntry today e p.2 = .ok a' := by
  induction as with
  | nil => simp [Ledger.processAll]
  | cons p as ih =>
    obtain ⟨k, a⟩ := p
    simp only [Ledger.processAll, bind, Except.bind, pure, Except.pure, List.forall_mem_cons]
    rw [← ih]
    constructor
    · rintro ⟨r, h⟩
      split at h
      · cases h
      · rename_i a1 h1
        split at h
        · cases h
        · rename_i r1 h2
          exact ⟨⟨a1, h1⟩, ⟨r1, h2⟩⟩
    · rintro ⟨⟨a1, h1⟩, ⟨r1, h2⟩⟩
      exact ⟨(k, a1) :: r1, by simp [h1, h2]⟩

theorem addEntry_withOrd (env : Env) (o1 o2 : HashOrder) (h1 : FairOrder o1) (h2 : FairOrder o2)
    (l l' : Ledger M) (e : Entry M) (h : l.addEntry (env.withOrd o1) e = .ok l') :
    l.addEntry (env.withOrd o2) e = .ok l' := by
  obtain ⟨accs, h3, rfl, h4⟩ := addEntry_ok _ _ _ _ h
  have h5 : ∃ r, Ledger.processAll env.today e (o2 l.accounts) = .ok r := by
    have h6 : ∃ r, Ledger.processAll env.today e (o1 l.accounts) = .ok r := h4
    rw [processAll_exists] at h6 ⊢
    intro p hp
    exact h6 p ((h1 _ l.accounts).mem_iff.2 ((h2 _ l.accounts).mem_iff.1 hp))
  obtain ⟨r, hr⟩ := h5
  unfold Ledger.addEntry
  show (Ledger.processAll env.today e (o2 l.accounts) >>= _) = _
  rw [hr]
  show (Ledger.processAll env.today e l.accounts >>= _) = _
  rw [show Ledger.processAll env.today e l.accounts = .ok accs from h3]
  rfl

theorem parseChunk_withOrd (env : Env) (o1 o2 : HashOrder) (h1 : FairOrder o1) (h2 : FairOrder o2)
    (inc1 inc2 : Ledger M × World → Str → Res (Ledger M × World))
    (hinc : ∀ st p st', inc1 st p = .ok st' → inc2 st p = .ok st') (st st' : Ledger M × World)
    (chunk : Str) (h : Ledger.parseChunk (env.withOrd o1) inc1 st chunk = .ok st') :
    Ledger.parseChunk (env.withOrd o2) inc2 st chunk = .ok st' := by
  unfold Ledger.parseChunk at h ⊢
  split at h
  · rename_i hc; rw [if_pos hc]; exact h
  · rename_i hc
    rw [if_neg hc]
    split at h
    · exact h
    · split at h
      · rename_i hk
        simp only [hk, if_true]
        unfold Ledger.parseAccount at h ⊢
        rw [Account.parse_withOrd] at h ⊢
        exact h
      · rename_i hk
        simp only [hk, if_false]
        split at h
        · rename_i hk; simp only [hk, if_true]; exact h
        · rename_i hk
          simp only [hk, if_false]
          split at h
          · rename_i hk; simp only [hk, if_true]; exact h
          · rename_i hk
            simp only [hk, if_false]
            split at h
            · rename_i hk
              simp only [hk, if_true]
              split at h
              · exact hinc _ _ _ h
              · cases h
            · rename_i hk
              simp only [hk, if_false]
              unfold Ledger.parseEntry at h ⊢
              rw [Entry.parse_withOrd] at h ⊢
              simp only [bind, Except.bind, pure, Except.pure] at h ⊢
              split at h
              · cases h
              · rename_i l' hl
                cases h
                split at hl
                · cases hl
                · rename_i e he
                  rw [addEntry_withOrd env o1 o2 h1 h2 _ _ _ hl]

theorem addLinesFrom_withOrd (env : Env) (o1 o2 : HashOrder) (h1 : FairOrder o1) (h2 : FairOrder o2)
    (inc1 inc2 : Ledger M × World → Str → Res (Ledger M × World))
    (hinc : ∀ st p st', inc1 st p = .ok st' → inc2 st p = .ok st') (ls : List Str)
    (st st' : Ledger M × World) (chunk : Str)
    (h : Ledger.addLinesFrom (env.withOrd o1) inc1 ls st chunk = .ok st') :
    Ledger.addLinesFrom (env.withOrd o2) inc2 ls st chunk = .ok st' := by
  induction ls generalizing st chunk with
  | nil => exact parseChunk_withOrd env o1 o2 h1 h2 inc1 inc2 hinc st st' chunk h
  | cons l ls ih =>
    simp only [Ledger.addLinesFrom] at h ⊢
    split at h
    · exact ih _ _ h
    · split at h
      · rename_i hw
        rw [if_pos hw]
        exact ih _ _ h
      · rename_i hw
        rw [if_neg hw]
        simp only [bind, Except.bind] at h ⊢
        split at h
        · cases h
        · rename_i st1 h3
          rw [parseChunk_withOrd env o1 o2 h1 h2 inc1 inc2 hinc st st1 chunk h3]
          exact ih _ _ h

theorem addFromFile_withOrd (env : Env) (o1 o2 : HashOrder) (h1 : FairOrder o1) (h2 : FairOrder o2)
    (fuel : Nat) (st st' : Ledger M × World) (path : Str)
    (h : Ledger.addFromFile (env.withOrd o1) fuel st path = .ok st') :
    Ledger.addFromFile (env.withOrd o2) fuel st path = .ok st' := by
  induction fuel generalizing st st' path with
  | zero => cases h
  | succ f ih =>
    simp only [Ledger.addFromFile] at h ⊢
    split at h
    · cases h
    · exact addLinesFrom_withOrd env o1 o2 h1 h2 _ _ (fun st p st' h => ih st st' p h) _ _ _ _ h

/-- C53: whatever the order in which maps are walked, the same journals are accepted, and what is
loaded is the same. -/
theorem C53_loading (env : Env) (o1 o2 : HashOrder) (h1 : FairOrder o1) (h2 : FairOrder o2)
    (fuel : Nat) (w : World) (path : Str) (r : Ledger M × World) :
    Ledger.fromFile (env.withOrd o1) fuel w path = .ok r ↔
      Ledger.fromFile (env.withOrd o2) fuel w path = .ok r :=
  ⟨addFromFile_withOrd env o1 o2 h1 h2 fuel _ _ path, addFromFile_withOrd env o2 o1 h2 h1 fuel _ _ path⟩

/-! ### The reports -/

theorem strLt_irrefl (a : Str) : strLt a a = false := by
  induction a with
  | nil => rfl
  | cons c s ih => simp [strLt, ih]

theorem strLt_asymm (a b : Str) (h : strLt a b = true) : strLt b a = false := by
  induction a generalizing b with
  | nil => cases b <;> simp_all [strLt]
  | cons c s ih =>
    cases b with
    | nil => simp [strLt] at h
    | cons d t =>
      simp only [strLt, Bool.or_eq_true, Bool.and_eq_true, decide_eq_true_eq, beq_iff_eq,
        Bool.or_eq_false_iff, decide_eq_false_iff_not, Bool.and_eq_false_iff, beq_eq_false_iff_ne] at h ⊢
      rcases h with h | ⟨rfl, h⟩
      · exact ⟨by omega, Or.inl (by rintro rfl; omega)⟩
      · exact ⟨by omega, Or.inr (ih t h)⟩

theorem char_eq_of_toNat {a b : Char} (h : a.toNat = b.toNat) : a = b :=
  Char.ext (UInt32.toNat_inj.1 h)

theorem strLt_total (a b : Str) (h1 : strLt a b = false) (h2 : strLt b a = false) : a = b := by
  induction a generalizing b with
  | nil => cases b <;> simp_all [strLt]
  | cons c s ih =>
    cases b with
    | nil => simp [strLt] at h2
    | cons d t =>
      simp only [strLt, Bool.or_eq_false_iff, decide_eq_false_iff_not, Bool.and_eq_false_iff,
        beq_eq_false_iff_ne] at h1 h2
      have hcd : c = d := char_eq_of_toNat (by omega)
      subst hcd
      rw [ih t (by simpa using h1.2) (by simpa using h2.2)]

theorem strLt_trans (a b c : Str) (h1 : strLt a b = true) (h2 : strLt b c = true) : strLt a c = true := by
  induction a generalizing b c with
  | nil =>
    cases b with
    | nil => simp [strLt] at h1
    | cons d t => cases c <;> simp_all [strLt]
  | cons x s ih =>
    cases b with
    | nil => simp [strLt] at h1
    | cons y t =>
      cases c with
      | nil => simp [strLt] at h2
      | cons z u =>
        simp only [strLt, Bool.or_eq_true, Bool.and_eq_true, decide_eq_true_eq, beq_iff_eq] at h1 h2 ⊢
        rcases h1 with h1 | ⟨rfl, h1⟩
        · rcases h2 with h2 | ⟨rfl, h2⟩
          · left; omega
          · left; exact h1
        · rcases h2 with h2 | ⟨rfl, h2⟩
          · left; exact h2
          · right; exact ⟨rfl, ih t u h1 h2⟩

theorem strLt_not_trans (a b c : Str) (h1 : strLt b a = false) (h2 : strLt c b = false) :
    strLt c a = false := by
  cases h : strLt c a with
  | false => rfl
  | true =>
    exfalso
    cases hab : strLt a b with
    | true => rw [strLt_trans c a b h hab] at h2; cases h2
    | false =>
      have := strLt_total a b hab h1
      subst this
      rw [h] at h2; cases h2

theorem sort_names (o1 o2 : HashOrder) (h1 : FairOrder o1) (h2 : FairOrder o2) (l : List Str) :
    stableSort strLt (o1 l) = stableSort strLt (o2 l) := by
  refine List.Perm.eq_of_pairwise (le := fun a b => strLt b a = false) ?_
    (stableSort_sorted _ strLt_not_trans strLt_asymm _)
    (stableSort_sorted _ strLt_not_trans strLt_asymm _)
    (((stableSort_perm _ _).trans (h1 _ l)).trans ((stableSort_perm _ _).trans (h2 _ l)).symm)
  intro a b _ _ h h'
  exact strLt_total a b h' h

theorem sort_keyed {α : Type} (o1 o2 : HashOrder) (h1 : FairOrder o1) (h2 : FairOrder o2)
    (l : List (Str × α)) (hn : (l.map Prod.fst).Nodup) :
    stableSort (fun a b => strLt a.1 b.1) (o1 l) = stableSort (fun a b => strLt a.1 b.1) (o2 l) := by
  have p1 := (stableSort_perm (fun a b : Str × α => strLt a.1 b.1) (o1 l)).trans (h1 _ l)
  have p2 := (stableSort_perm (fun a b : Str × α => strLt a.1 b.1) (o2 l)).trans (h2 _ l)
  refine List.Perm.eq_of_pairwise (le := fun a b : Str × α => strLt b.1 a.1 = false) ?_
    (stableSort_sorted _ (fun a b c => strLt_not_trans a.1 b.1 c.1) (fun a b => strLt_asymm a.1 b.1) _)
    (stableSort_sorted _ (fun a b c => strLt_not_trans a.1 b.1 c.1) (fun a b => strLt_asymm a.1 b.1) _)
    (p1.trans p2.symm)
  intro a b ha hb h h'
  have hk : a.1 = b.1 := strLt_total a.1 b.1 h' h
  have ha' : (a.1, a.2) ∈ l := p1.mem_iff.1 ha
  have hb' : (a.1, b.2) ∈ l := by rw [hk]; exact p2.mem_iff.1 hb
  have e1 := mapGet_of_mem hn ha'
  have e2 := mapGet_of_mem hn hb'
  rw [e1] at e2
  exact Prod.ext hk (Option.some.inj e2)

theorem totalsLoop_nodup (es : List (Entry M)) (tot tot' : List (Str × Pool M))
    (h : Ledger.totalsLoop es tot = .ok tot') (hn : (tot.map Prod.fst).Nodup) :
    (tot'.map Prod.fst).Nodup := by
  have step : ∀ (e : Entry M) (p : Posting M) (tot tot' : List (Str × Pool M)),
      Ledger.totalsStep e p tot = .ok tot' → (tot.map Prod.fst).Nodup → (tot'.map Prod.fst).Nodup := by
    intro e p tot tot' h hn
    unfold Ledger.totalsStep at h
    split at h
    · split at h
      · cases h; exact mapInsert_nodup _ _ _ hn
      · simp only [bind, Except.bind, pure, Except.pure] at h
        split at h
        · cases h
        · split at h
          · cases h; exact mapInsert_nodup _ _ _ hn
          · cases h; exact hn
    · split at h
      · cases h; exact mapInsert_nodup _ _ _ hn
      · cases h; exact mapInsert_nodup _ _ _ hn
  have entry : ∀ (e : Entry M) (ps : List (Posting M)) (tot tot' : List (Str × Pool M)),
      Ledger.totalsEntry e ps tot = .ok tot' → (tot.map Prod.fst).Nodup → (tot'.map Prod.fst).Nodup := by
    intro e ps
    induction ps with
    | nil => intro tot tot' h hn; cases h; exact hn
    | cons p ps ih =>
      intro tot tot' h hn
      simp only [Ledger.totalsEntry, bind, Except.bind] at h
      split at h
      · cases h
      · rename_i t ht
        exact ih t tot' h (step e p tot t ht hn)
  induction es generalizing tot with
  | nil => cases h; exact hn
  | cons e es ih =>
    simp only [Ledger.totalsLoop, bind, Except.bind] at h
    split at h
    · cases h
    · rename_i t ht
      exact ih t h (entry e _ tot t ht hn)

/-- C53: the balance report is the same, line by line, whatever the order of the map. -/
theorem C53_balance_report (env : Env) (o1 o2 : HashOrder) (h1 : FairOrder o1) (h2 : FairOrder o2)
    (l : Ledger M) : l.displayBalance (env.withOrd o1) = l.displayBalance (env.withOrd o2) := by
  unfold Ledger.displayBalance
  cases ht : l.totals with
  | error f => rfl
  | ok tot =>
    have hn : (tot.map Prod.fst).Nodup := totalsLoop_nodup l.entries [] tot ht (by simp)
    show Except.ok ((stableSort _ (o1 tot)).map _) = Except.ok ((stableSort _ (o2 tot)).map _)
    rw [sort_keyed o1 o2 h1 h2 tot hn]

/-- C53: so is the report on envelopes. -/
theorem C53_envelope_report (env : Env) (o1 o2 : HashOrder) (h1 : FairOrder o1) (h2 : FairOrder o2)
    (l : Ledger M) : l.displayEnvelopes (env.withOrd o1) = l.displayEnvelopes (env.withOrd o2) := by
  unfold Ledger.displayEnvelopes
  show Ledger.displayAccounts env.today l.accounts (stableSort strLt (o1 l.accountNames))
    = Ledger.displayAccounts env.today l.accounts (stableSort strLt (o2 l.accountNames))
  rw [sort_names o1 o2 h1 h2]

/-- The lines of the balance report, each account once, are in order of name. -/
theorem C53_report_sorted (env : Env) (h : FairOrder env.ord) (l : Ledger M) (ls : List Str)
    (hl : l.displayBalance env = .ok ls) :
    ∃ (tot shown : List (Str × Pool M)), l.totals = .ok tot ∧ shown.Perm tot ∧
      shown.Pairwise (fun a b => strLt b.1 a.1 = false) ∧
      ls = shown.map fun p => padRight 35 p.1 ++ s%"    " ++ Pool.display p.2 := by
  unfold Ledger.displayBalance at hl
  cases ht : l.totals with
  | error f => simp [ht, bind, Except.bind] at hl
  | ok tot =>
    simp only [ht, bind, Except.bind, pure, Except.pure, Except.ok.injEq] at hl
    exact ⟨tot, _, rfl, (stableSort_perm _ _).trans (h _ tot),
      stableSort_sorted _ (fun a b c => strLt_not_trans a.1 b.1 c.1) (fun a b => strLt_asymm a.1 b.1) _,
      hl.symm⟩

/-- Two orders: as listed and reversed. -/
example : FairOrder (fun l => l) ∧ FairOrder List.reverse :=
  ⟨fun _ l => .refl l, fun _ l => List.reverse_perm l⟩

/-- With three accounts walked in two orders. -/
example : ∃ l, loadText Rat "account b\naccount a\naccount c\n2024/01/02 * y\n c 10\n a -10
2024/01/05 * x\n b 3\n a -3\n" = .ok l ∧
    l.accounts.map Prod.fst = [s%"b", s%"a", s%"c"] ∧
    ∃ ls, l.displayBalance ((stdEnv june15).withOrd List.reverse) = .ok ls ∧
      ls.map (fun x => x.take 1) = [s%"a", s%"b", s%"c"] := by decide +kernel

end Silverfox
