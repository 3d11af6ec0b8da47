import Verif.Props.Conserve
import Verif.Props.Books
import Verif.Props.Reports

/-
C108: does filling envelopes leave the balance report as it was?
-/

namespace Silverfox

set_option linter.unusedSectionVars false

/-- Specification: the balance that the report shows for `k` in the currency `s`. -/
def shownFor (tot : List (Str × Pool Rat)) (k : Str) (s : Option Str) : Rat :=
  match mapGet tot k with
  | some p => (p.only s).mag
  | none => 0

/-- Specification: what some envelope postings move in the currency `s`. -/
def setAside (qs : List (EnvPosting Rat)) (s : Option Str) : Rat :=
  (qs.map fun q => if q.amount.sym = s then q.amount.mag else 0).sum

theorem grandTotal_other (k : Str) (s : Option Str) (tot : List (Str × Pool Rat))
    (h : k ∉ tot.map Prod.fst) : grandTotal (fun x => x == k) tot s = 0 := by
  unfold grandTotal
  rw [List.filter_eq_nil_iff.2]
  · rfl
  · intro p hp hc
    exact h (List.mem_map.2 ⟨p, hp, by simpa using hc⟩)

theorem grandTotal_one (k : Str) (s : Option Str) (tot : List (Str × Pool Rat))
    (hn : (tot.map Prod.fst).Nodup) : grandTotal (fun x => x == k) tot s = shownFor tot k s := by
  induction tot with
  | nil => rfl
  | cons x tot ih =>
    obtain ⟨k', v⟩ := x
    rw [List.map_cons, List.nodup_cons] at hn
    rw [grandTotal_cons]
    by_cases hk : k' = k
    · subst hk
      rw [grandTotal_other k' s tot hn.1]
      simp [shownFor, mapGet, Pool.bal]
    · rw [ih hn.2]
      simp [shownFor, mapGet, hk]

theorem sum_nonzero (qs : List (EnvPosting Rat)) (s : Option Str) :
    setAside (qs.filter fun p => !Mag.eq p.amount.mag (Mag.zero : Rat)) s = setAside qs s := by
  unfold setAside
  induction qs with
  | nil => rfl
  | cons q qs ih =>
    by_cases hq : q.amount.mag = 0
    · have : Mag.eq q.amount.mag (Mag.zero : Rat) = true := by simp [Mag.eq, Mag.zero, hq]
      rw [List.filter_cons_of_neg (by simp [this]), ih]
      simp [hq]
    · have : Mag.eq q.amount.mag (Mag.zero : Rat) = false := by simp [Mag.eq, Mag.zero, hq]
      rw [List.filter_cons_of_pos (by simp [this]), List.map_cons, List.sum_cons, ih]
      simp

theorem movedIn_fill (today : Date) (qs : List (EnvPosting Rat)) (k : Str) (s : Option Str) :
    (Ledger.fillEntry today qs).movedIn (fun x => x == k) s = setAside (ofAccount k qs) s := by
  unfold Entry.movedIn
  generalize he : Ledger.fillEntry today qs = e
  have hp : e.postings = qs.map Posting.envelope := by rw [← he]; rfl
  rw [hp]
  clear he hp
  unfold setAside ofAccount
  induction qs with
  | nil => rfl
  | cons q qs ih =>
    rw [List.map_cons, movedIn_cons (fun x => x == k), ih]
    by_cases hk : q.account = k
    · rw [List.filter_cons_of_pos (by simp [hk])]
      simp [Posting.account, hk, Entry.moved, Posting.amount]
    · rw [List.filter_cons_of_neg (by simp [hk])]
      simp [Posting.account, hk]

/-- No posting of the fill entry is blank, so that it does not matter where it comes. -/
theorem firstHas_insert (k : Str) (pre post : List (Entry Rat)) (x : Entry Rat)
    (hx : ∀ p ∈ x.postings, p.amount.isSome = true) (h : FirstHasAmount k (pre ++ post)) :
    FirstHasAmount k (pre ++ x :: post) := by
  intro p hp
  have e1 : (pre ++ x :: post).flatMap Entry.postings =
      pre.flatMap Entry.postings ++ (x.postings ++ post.flatMap Entry.postings) := by simp
  have e2 : (pre ++ post).flatMap Entry.postings =
      pre.flatMap Entry.postings ++ post.flatMap Entry.postings := by simp
  unfold FirstHasAmount at h
  rw [e2] at h
  rw [e1, List.find?_append, List.find?_append] at hp
  simp only [List.find?_append] at h
  cases h1 : (pre.flatMap Entry.postings).find? (fun p => p.account == k) with
  | some q =>
    rw [h1] at hp h
    exact h p hp
  | none =>
    rw [h1] at hp h
    simp only [Option.none_or] at hp h
    cases h2 : x.postings.find? (fun p => p.account == k) with
    | some q =>
      rw [h2] at hp
      cases hp
      exact hx _ (List.mem_of_find?_eq_some h2)
    | none =>
      rw [h2] at hp
      exact h p hp

/-- Sorting an entry in leaves the others in their order. -/
theorem stableSort_insert {α : Type} (lt : α → α → Bool) (x : α) (es : List α) (h : SortedBy lt es) :
    ∃ pre post, es = pre ++ post ∧ stableSort lt (es ++ [x]) = pre ++ x :: post := by
  induction es with
  | nil => exact ⟨[], [], rfl, rfl⟩
  | cons a es ih =>
    unfold SortedBy at h ih
    rw [List.pairwise_cons] at h
    obtain ⟨pre, post, rfl, h2⟩ := ih h.2
    have e : stableSort lt (a :: (pre ++ post) ++ [x]) = insertBy lt a (stableSort lt (pre ++ post ++ [x])) := rfl
    rw [e, h2]
    cases pre with
    | cons b pre =>
      refine ⟨a :: b :: pre, post, rfl, ?_⟩
      have := h.1 b (by simp)
      simp [insertBy, this]
    | nil =>
      rw [List.nil_append] at h
      by_cases hx : lt x a = true
      · refine ⟨[], a :: post, rfl, ?_⟩
        rw [List.nil_append, List.nil_append]
        simp only [insertBy, hx, if_true]
        rw [insertBy_of_sorted lt a post h.1]
      · refine ⟨[a], post, rfl, ?_⟩
        simp [insertBy, hx]

theorem totals_nodup (l : Ledger Rat) (tot : List (Str × Pool Rat)) (h : l.totals = .ok tot) :
    (tot.map Prod.fst).Nodup := totalsLoop_nodup l.entries [] tot h (by simp)

/-- What is set aside in the account `k` is what its own fill postings set aside. -/
theorem setAside_nonzero (k : Str) (ps : List (EnvPosting Rat)) (s : Option Str) :
    setAside (ofAccount k (ps.filter fun p => !Mag.eq p.amount.mag (Mag.zero : Rat))) s =
      setAside (ofAccount k ps) s := by
  rw [← sum_nonzero (ofAccount k ps)]
  unfold ofAccount
  rw [List.filter_filter, List.filter_filter]
  congr 1
  apply List.filter_congr
  intro p _
  exact Bool.and_comm _ _

/-- C108, what happens instead: filling raises the balance that the report shows for an account by all
that is set aside in its envelopes, although no money came. (Accounts that begin with a blank posting are
reported wrongly before, see C51.) -/
theorem C108_shown_grows_by_what_is_set_aside (env : Env) (hord : FairOrder env.ord) (fuel : Nat)
    (w w1 w2 : World) (path : Str) (l l' : Ledger Rat)
    (hload : Ledger.fromFile env fuel w path = .ok (l, w1))
    (h : l.fillEnvelopes env w1 = (w2, .ok l')) (tot tot' : List (Str × Pool Rat))
    (ht : l.totals = .ok tot) (ht' : l'.totals = .ok tot')
    (k : Str) (a : Account Rat) (hm : (k, a) ∈ l.accounts) (hf : FirstHasAmount k l.entries) :
    ∃ qs, a.fillingPostings env.today = .ok qs ∧
      ∀ s, shownFor tot' k s = shownFor tot k s + setAside qs s := by
  have hl := loaded_inv env fuel w w1 path l hload
  obtain ⟨_, _, hsorted, _⟩ := C47_loaded env fuel w w1 path l hload
  have hk : Keyed (env.ord l.accounts) := by
    refine ⟨((hord _ l.accounts).map Prod.fst).nodup_iff.2 hl.keys, fun k a hm e he => ?_⟩
    have hm' := (hord _ l.accounts).mem_iff.1 hm
    rw [(hl.wf k a hm').owner e he, hl.names k a hm']
  have hnd := totals_nodup l tot ht
  have hnd' := totals_nodup l' tot' ht'
  unfold Ledger.fillEnvelopes at h
  split at h
  · cases h
  · rename_i ps hps
    have hq := fillAll_ofAccount env.today _ hk ps hps k a ((hord _ l.accounts).mem_iff.2 hm)
    refine ⟨_, hq, fun s => ?_⟩
    simp only at h
    split at h
    · rename_i he
      cases h
      rw [ht] at ht'
      cases ht'
      have : setAside (ofAccount k ps) s = 0 := by
        rw [← setAside_nonzero, List.isEmpty_iff.1 he]; rfl
      rw [this]; ring
    · rcases appendEntry_cases env w1 l _ w2 _ h with ⟨_, hx, _⟩ | ⟨_, _, _, h3⟩
      · cases hx
      · obtain ⟨accs, _, rfl, _⟩ := addEntry_ok _ _ _ _ h3.symm
        rw [← grandTotal_one k s tot' hnd', ← grandTotal_one k s tot hnd,
          C97_exact_rule _ tot' ht' _ s, C97_exact_rule l tot ht _ s]
        obtain ⟨pre, post, e1, e2⟩ := stableSort_insert (fun a b : Entry Rat => Date.lt a.date b.date)
          (Ledger.fillEntry env.today (ps.filter fun p => !Mag.eq p.amount.mag (Mag.zero : Rat))) l.entries hsorted
        have hf' := firstHas_insert k pre post
          (Ledger.fillEntry env.today (ps.filter fun p => !Mag.eq p.amount.mag (Mag.zero : Rat)))
          (by
            intro p hp
            have : (Ledger.fillEntry env.today (ps.filter fun p => !Mag.eq p.amount.mag (Mag.zero : Rat))).postings
                = (ps.filter fun p => !Mag.eq p.amount.mag (Mag.zero : Rat)).map Posting.envelope := rfl
            rw [this] at hp
            obtain ⟨q, _, rfl⟩ := List.mem_map.1 hp
            rfl) (e1 ▸ hf)
        rw [leftOut_zero _ l.entries s (by intro k' hk'; rw [beq_iff_eq.1 hk']; exact hf)]
        simp only
        rw [e2, leftOut_zero _ _ s (by intro k' hk'; rw [beq_iff_eq.1 hk']; exact hf'), e1]
        simp only [List.map_append, List.map_cons, List.sum_append, List.sum_cons]
        rw [movedIn_fill, setAside_nonzero]
        ring

/-- C108: what the report shows never falls by filling. -/
theorem C108_shown_never_falls (env : Env) (hord : FairOrder env.ord) (fuel : Nat)
    (w w1 w2 : World) (path : Str) (l l' : Ledger Rat)
    (hload : Ledger.fromFile env fuel w path = .ok (l, w1))
    (h : l.fillEnvelopes env w1 = (w2, .ok l')) (tot tot' : List (Str × Pool Rat))
    (ht : l.totals = .ok tot) (ht' : l'.totals = .ok tot')
    (k : Str) (a : Account Rat) (hm : (k, a) ∈ l.accounts) (hf : FirstHasAmount k l.entries) (s : Option Str) :
    shownFor tot k s ≤ shownFor tot' k s := by
  obtain ⟨qs, h1, h2⟩ := C108_shown_grows_by_what_is_set_aside env hord fuel w w1 w2 path l l' hload h tot tot'
    ht ht' k a hm hf
  have hq : ∀ q ∈ qs, 0 ≤ q.amount.mag :=
    fillLoop_nonneg env.today _ _ _ h1
  have : 0 ≤ setAside qs s := by
    unfold setAside
    clear h1 h2
    induction qs with
    | nil => exact le_refl _
    | cons q qs ih =>
      rw [List.map_cons, List.sum_cons]
      have h3 := ih fun q hq' => hq q (by simp [hq'])
      have h4 := hq q (by simp)
      split <;> linarith
  rw [h2 s]; linarith

/-- C108, where it holds. Full statement: filling envelopes does not change what the balance report shows.
Proved for the accounts that have no envelopes; for the others
`C108_shown_grows_by_what_is_set_aside` says by how much the report is off. -/
theorem C108_without_envelopes_partial (env : Env) (hord : FairOrder env.ord) (fuel : Nat)
    (w w1 w2 : World) (path : Str) (l l' : Ledger Rat)
    (hload : Ledger.fromFile env fuel w path = .ok (l, w1))
    (h : l.fillEnvelopes env w1 = (w2, .ok l')) (tot tot' : List (Str × Pool Rat))
    (ht : l.totals = .ok tot) (ht' : l'.totals = .ok tot')
    (k : Str) (a : Account Rat) (hm : (k, a) ∈ l.accounts) (he : a.envelopes = [])
    (hf : FirstHasAmount k l.entries) (s : Option Str) : shownFor tot' k s = shownFor tot k s := by
  obtain ⟨qs, h1, h2⟩ := C108_shown_grows_by_what_is_set_aside env hord fuel w w1 w2 path l l' hload h tot tot'
    ht ht' k a hm hf
  unfold Account.fillingPostings at h1
  rw [he] at h1
  cases h1
  rw [h2 s]
  simp [setAside]

/-- An account with 30, of which its envelopes ask for 50. -/
def filledWorld : World := disk [("j",
  "account a\n  expense x due every 1st\n    amount 50\n    funding aggressive\naccount f
2024/01/02 * pay\n a 30\n f -30\n")]

/-- The same account meets the hypotheses of `C108_shown_grows_by_what_is_set_aside`. -/
example : ∃ l, (Ledger.fromFile (stdEnv june15) 9 filledWorld s%"j" : Res (Ledger Rat × World)).map Prod.fst = .ok l ∧
    (((l.entries.flatMap Entry.postings).find? fun p => p.account == s%"a").map fun p => p.amount) =
      some (some ⟨30, none⟩) ∧
    ((mapGet l.accounts s%"a").map fun a =>
      match a.fillingPostings june15 with
      | .ok qs => setAside qs none
      | .error _ => 0) = some 30 := by decide +kernel

/-- C108 is false: the report shows 30, but 60 as soon as envelopes are filled, and then even without
filling. -/
theorem C108_filling_changes_the_report :
    let run := fun (args : List Str) (w : World) =>
      mainProgram Rat (stdEnv june15) { exOutside with ledgerFile := some s%"j" } args w
    (run [s%"bal", s%"-n"] filledWorld).2 = .ok [s%"a                                       30", s%"f                                      -30"] ∧
    (run [s%"bal"] filledWorld).2 = .ok [s%"a                                       60", s%"f                                      -30"] ∧
    (run [s%"bal", s%"-n"] (run [s%"bal"] filledWorld).1).2 = .ok [s%"a                                       60", s%"f                                      -30"] := by decide +kernel

end Silverfox
