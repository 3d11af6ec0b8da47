import Verif.Proofs.Postings
import Verif.Props.Directives

/-
C09-C11: postings.
-/

namespace Silverfox

set_option linter.unusedSectionVars false

variable {M : Type} [Mag M]

/-! ### C09 -/

/-- The text of clauses, each an operator and an amount. -/
def clauseText : List (Str × Str) → Str
  | [] => []
  | c :: cs => s%" " ++ c.1 ++ s%" " ++ c.2 ++ clauseText cs

/-- The text of a posting: indentation, account, amount, clauses. -/
def postingText (ind acc amt : Str) (cs : List (Str × Str)) : Str :=
  ind ++ acc ++ s%" " ++ amt ++ clauseText cs

/-- No word of the text is an operator. -/
def NoOps (s : Str) : Prop := ∀ t ∈ splitWs s, t ∉ [s%"!", s%"!!", s%"@", s%"="]

instance (s : Str) : Decidable (NoOps s) := by unfold NoOps; infer_instance

theorem isOp_false {t : Str} (h : t ∉ [s%"!", s%"!!", s%"@", s%"="]) : isOp t = false := by
  simp only [List.mem_cons, List.not_mem_nil, or_false, not_or] at h
  obtain ⟨h1, h2, h3, h4⟩ := h
  unfold isOp
  simp only [Bool.or_eq_false_iff, beq_eq_false_iff_ne]
  exact ⟨⟨⟨h3, h1⟩, h4⟩, h2⟩

theorem rc_trim {s : Str} (h : rc s = s) : rc (trim s) = trim s := by
  rw [← noComment_iff] at h ⊢
  obtain ⟨a, b, _, _, e⟩ := trim_spec s
  refine ⟨fun hm => h.1 (by rw [e]; simp [hm]), fun hi => h.2 ?_⟩
  exact hi.trans ⟨a, b, e.symm⟩

/-- `Posting::parse` of an ordinary posting line. -/
theorem Posting.parse_classic (line : Str) (dec : Char) (accs : List Str) {acc : Str} {ts : List Str}
    (h : splitWs (trim (removeComments line)) = acc :: ts) (hacc : acc ≠ s%"envelope") :
    (Posting.parse line dec accs : Res (Posting M)) = (Classic.parse line dec accs).map Posting.classic := by
  unfold Posting.parse
  simp only [h, hacc, if_false]
  have : (Classic.parse (trim (removeComments line)) dec accs : Res (Classic M)) = Classic.parse line dec accs := by
    unfold Classic.parse
    have : removeComments (trim (removeComments line)) = trim (removeComments line) := by
      rw [removeComments_eq_rc, removeComments_eq_rc]
      exact rc_trim (rc_idem line)
    rw [this, trim_trim]
  rw [this]
  cases Classic.parse (M := M) line dec accs <;> rfl

theorem rc_clauseText (cs : List (Str × Str)) (h : ∀ c ∈ cs, c.1 ∈ opStrs ∧ NoComment c.2) :
    rc (clauseText cs) = clauseText cs := by
  induction cs with
  | nil => rfl
  | cons c cs ih =>
    have ih := ih fun d hd => h d (by simp [hd])
    obtain ⟨h1, h2⟩ := h c (by simp)
    rw [noComment_iff] at h2
    have h1' : rc c.1 = c.1 := by
      simp only [opStrs, List.mem_cons, List.not_mem_nil, or_false] at h1
      rcases h1 with h1 | h1 | h1 <;> · rw [h1]; decide
    have hh : (clauseText cs).head? ≠ some '/' := by
      cases cs <;> simp [clauseText]
    unfold clauseText
    rw [show s%" " ++ c.1 ++ s%" " ++ c.2 ++ clauseText cs = ' ' :: (c.1 ++ ' ' :: (c.2 ++ clauseText cs)) by simp,
      rc_space_cons, rc_space h1', rc_append h2 hh, ih]

theorem splitWs_clauseText (a : Str) (cs : List (Str × Str)) (h : ∀ c ∈ cs, c.1 ∈ opStrs) :
    splitWs (a ++ clauseText cs) = splitWs a ++ clauseToks (cs.map fun c => (c.1, splitWs c.2)) := by
  induction cs generalizing a with
  | nil => simp [clauseText, clauseToks]
  | cons c cs ih =>
    have hw : splitWs c.1 = [c.1] := by
      have h1 := h c (by simp)
      simp only [opStrs, List.mem_cons, List.not_mem_nil, or_false] at h1
      rcases h1 with h1 | h1 | h1 <;> · rw [h1]; decide
    unfold clauseText
    rw [show a ++ (s%" " ++ c.1 ++ s%" " ++ c.2 ++ clauseText cs) =
      a ++ ' ' :: (c.1 ++ ' ' :: (c.2 ++ clauseText cs)) by simp, splitWs_append_ws _ isWs_space,
      splitWs_append_ws _ isWs_space, ih _ fun d hd => h d (by simp [hd]), hw]
    simp [clauseToks]

/-- The text of the posting has the words one expects. -/
theorem postingText_words {ind acc amt : Str} {cs : List (Str × Str)} (hind : allWs ind) (hacc : isWord acc)
    (hacc' : NoComment acc) (hamt : NoComment amt) (hcs : ∀ c ∈ cs, c.1 ∈ opStrs ∧ NoComment c.2) :
    splitWs (trim (removeComments (postingText ind acc amt cs))) =
      acc :: (splitWs amt ++ clauseToks (cs.map fun c => (c.1, splitWs c.2))) := by
  have hind' : rc ind = ind := rc_allWs hind
  have hh : (clauseText cs).head? ≠ some '/' := by cases cs <;> simp [clauseText]
  have hr : removeComments (postingText ind acc amt cs) = postingText ind acc amt cs := by
    rw [removeComments_eq_rc]
    rw [noComment_iff] at hacc' hamt
    unfold postingText
    rw [show ind ++ acc ++ s%" " ++ amt ++ clauseText cs = ind ++ (acc ++ ' ' :: (amt ++ clauseText cs)) by simp]
    cases ind with
    | nil => rw [List.nil_append, rc_space hacc', rc_append hamt hh, rc_clauseText cs hcs]
    | cons i is =>
      -- whitespace in front
      have key : ∀ l : Str, allWs l → ∀ t, rc t = t → rc (l ++ t) = l ++ t := by
        intro l hl t ht
        induction l with
        | nil => exact ht
        | cons c l ih =>
          rw [List.cons_append, rc, startsMark_ws (hl c (by simp))]
          simp only [Bool.false_eq_true, if_false]
          rw [ih fun d hd => hl d (by simp [hd])]
      apply key _ hind
      rw [rc_space hacc', rc_append hamt hh, rc_clauseText cs hcs]
  rw [hr, splitWs_trim]
  unfold postingText
  rw [show ind ++ acc ++ s%" " ++ amt ++ clauseText cs = ind ++ (acc ++ ' ' :: (amt ++ clauseText cs)) by simp,
    splitWs_ws_left hind, splitWs_append_ws _ isWs_space, splitWs_word hacc,
    splitWs_clauseText _ _ fun c hc => (hcs c hc).1]
  rfl

/-- C09. The clauses of a posting, with distinct operators among `!`, `@`, `=`, may be written in any
order: the same posting is read, or the same kind of error is reported. -/
theorem C09_clause_order {ind acc amt : Str} {cs cs' : List (Str × Str)} (hp : cs.Perm cs')
    (hind : allWs ind) (hacc : isWord acc) (henv : acc ≠ s%"envelope") (hacc' : NoComment acc)
    (hamt : NoComment amt ∧ NoOps amt)
    (hops : ∀ c ∈ cs, c.1 ∈ [s%"!", s%"@", s%"="]) (hdist : (cs.map Prod.fst).Nodup)
    (hcs : ∀ c ∈ cs, NoComment c.2 ∧ NoOps c.2) (dec : Char) (accs : List Str) :
    Posting.parse (postingText ind acc amt cs) dec accs =
      (Posting.parse (postingText ind acc amt cs') dec accs : Res (Posting M)) := by
  have h1 := postingText_words hind hacc hacc' hamt.1 (fun c hc => ⟨hops c hc, (hcs c hc).1⟩)
  have h2 := postingText_words (cs := cs') hind hacc hacc' hamt.1
    (fun c hc => ⟨hops c (hp.mem_iff.2 hc), (hcs c (hp.mem_iff.2 hc)).1⟩)
  have hc : Clauses (splitWs amt) (cs.map fun c => (c.1, splitWs c.2)) := by
    refine ⟨fun t ht => isOp_false (hamt.2 t ht), ?_, ?_, ?_⟩
    · intro c hc
      obtain ⟨d, hd, rfl⟩ := List.mem_map.1 hc
      exact hops d hd
    · rw [List.map_map]; exact hdist
    · intro c hc t ht
      obtain ⟨d, hd, rfl⟩ := List.mem_map.1 hc
      exact isOp_false ((hcs d hd).2 t ht)
  have hp' := hp.map fun c => (c.1, splitWs c.2)
  have hc' := hc.perm hp'
  rw [Posting.parse_classic _ _ _ h1 henv, Posting.parse_classic _ _ _ h2 henv,
    Classic.parse_clauses h1 hc, Classic.parse_clauses h2 hc']
  have e : ∀ o, (clauseAmount (cs.map fun c => (c.1, splitWs c.2)) dec o : Res (Option (Amount M))) =
      clauseAmount (cs'.map fun c => (c.1, splitWs c.2)) dec o := by
    intro o
    unfold clauseAmount
    rw [find_perm hp' hc.distinct]
  unfold clauseCost
  simp only [e]

/-- C09 for two clauses. -/
theorem C09_two_clauses {acc amt o x y : Str} (hacc : isWord acc) (henv : acc ≠ s%"envelope")
    (hacc' : NoComment acc) (hamt : NoComment amt ∧ NoOps amt) (ho : o = s%"@" ∨ o = s%"=")
    (hx : NoComment x ∧ NoOps x) (hy : NoComment y ∧ NoOps y) (dec : Char) (accs : List Str) :
    Posting.parse (acc ++ s%" " ++ amt ++ s%" ! " ++ x ++ s%" " ++ o ++ s%" " ++ y) dec accs =
      (Posting.parse (acc ++ s%" " ++ amt ++ s%" " ++ o ++ s%" " ++ y ++ s%" ! " ++ x) dec accs : Res (Posting M)) := by
  have := C09_clause_order (M := M) (ind := []) (acc := acc) (amt := amt)
    (List.Perm.swap (o, y) (s%"!", x) []) allWs_nil hacc henv hacc' hamt ?_ ?_ ?_ dec accs
  · simpa [postingText, clauseText] using this
  · rcases ho with rfl | rfl <;> simp
  · rcases ho with rfl | rfl <;> simp
  · simp [hx, hy]

example : Posting.parse s%"  assets 5 BTC ! 10 BTC @ $ 3" '.' [s%"assets"] =
    .ok (Posting.classic ⟨s%"assets", some (⟨5, some s%"BTC"⟩ : Amount Rat), some (.unit ⟨3, some s%"$"⟩),
      some ⟨10, some s%"BTC"⟩⟩) ∧
    postingText s%"  " s%"assets" s%"5 BTC" [(s%"!", s%"10 BTC"), (s%"@", s%"$ 3")] =
      s%"  assets 5 BTC ! 10 BTC @ $ 3" := by decide +kernel

/-- The reading, clause by clause. -/
theorem C09_reading {ind acc amt : Str} {cs : List (Str × Str)} (hind : allWs ind) (hacc : isWord acc)
    (henv : acc ≠ s%"envelope") (hacc' : NoComment acc) (hamt : NoComment amt ∧ NoOps amt)
    (hops : ∀ c ∈ cs, c.1 ∈ [s%"!", s%"@", s%"="]) (hdist : (cs.map Prod.fst).Nodup)
    (hcs : ∀ c ∈ cs, NoComment c.2 ∧ NoOps c.2) (dec : Char) (accs : List Str) (c : Classic M)
    (h : Posting.parse (postingText ind acc amt cs) dec accs = .ok (.classic c)) :
    c.account = acc ∧ acc ∈ accs ∧ (c.amount = none ↔ allWs amt) ∧
      (∀ x a, (s%"!", x) ∈ cs → (Amount.parse (joinWith s%" " (splitWs x)) dec = .ok a ↔ c.balance = some a)) ∧
      (∀ x a, (s%"@", x) ∈ cs → (Amount.parse (joinWith s%" " (splitWs x)) dec = .ok a ↔ c.cost = some (.unit a))) ∧
      (s%"@" ∉ cs.map Prod.fst → ∀ x a, (s%"=", x) ∈ cs →
        (Amount.parse (joinWith s%" " (splitWs x)) dec = .ok a ↔ c.cost = some (.total a))) := by
  have h1 := postingText_words hind hacc hacc' hamt.1 (fun c hc => ⟨hops c hc, (hcs c hc).1⟩)
  have hc : Clauses (splitWs amt) (cs.map fun c => (c.1, splitWs c.2)) := by
    refine ⟨fun t ht => isOp_false (hamt.2 t ht), ?_, ?_, ?_⟩
    · intro c hc
      obtain ⟨d, hd, rfl⟩ := List.mem_map.1 hc
      exact hops d hd
    · rw [List.map_map]; exact hdist
    · intro c hc t ht
      obtain ⟨d, hd, rfl⟩ := List.mem_map.1 hc
      exact isOp_false ((hcs d hd).2 t ht)
  rw [Posting.parse_classic _ _ _ h1 henv, Classic.parse_clauses h1 hc] at h
  have hfind : ∀ o x, (o, x) ∈ cs → (clauseAmount (cs.map fun c => (c.1, splitWs c.2)) dec o : Res (Option (Amount M))) =
      (Amount.parse (joinWith s%" " (splitWs x)) dec).map some := by
    intro o x hx
    unfold clauseAmount
    have hm : (o, splitWs x) ∈ cs.map fun c => (c.1, splitWs c.2) := List.mem_map.2 ⟨_, hx, rfl⟩
    have hd := hc.distinct
    generalize (cs.map fun c => (c.1, splitWs c.2)) = l at hm hd
    have : l.find? (fun c => c.1 == o) = some (o, splitWs x) := by
      induction l with
      | nil => cases hm
      | cons d l ih =>
        rw [List.map_cons, List.nodup_cons] at hd
        rcases List.mem_cons.1 hm with rfl | hm
        · simp
        · have : d.1 ≠ o := by
            intro e
            apply hd.1
            rw [e]
            exact List.mem_map.2 ⟨_, hm, rfl⟩
          simp [this, ih hm hd.2]
    rw [this]
  have hnone : s%"@" ∉ cs.map Prod.fst →
      (clauseAmount (cs.map fun c => (c.1, splitWs c.2)) dec s%"@" : Res (Option (Amount M))) = .ok none := by
    intro hn
    unfold clauseAmount
    have : (cs.map fun c => (c.1, splitWs c.2)).find? (fun c => c.1 == s%"@") = none := by
      rw [List.find?_eq_none]
      intro d hd
      obtain ⟨e, he, rfl⟩ := List.mem_map.1 hd
      simp only [beq_iff_eq]
      intro h
      exact hn (List.mem_map.2 ⟨e, he, h⟩)
    rw [this]
  cases hf : (firstAmount (splitWs amt) dec : Res (Option (Amount M))) with
  | error f => rw [hf] at h; cases h
  | ok am =>
  cases hb : (clauseAmount (cs.map fun c => (c.1, splitWs c.2)) dec s%"!" : Res (Option (Amount M))) with
  | error f => rw [hf, hb] at h; cases h
  | ok ba =>
  cases hco : (clauseCost (cs.map fun c => (c.1, splitWs c.2)) dec : Res (Option (Cost M))) with
  | error f => rw [hf, hb, hco] at h; cases h
  | ok co =>
  rw [hf, hb, hco] at h
  simp only [bind, Except.bind, pure, Except.pure] at h
  by_cases hin : accs.contains acc = true
  · rw [if_pos hin] at h
    simp only [Except.map, Except.ok.injEq, Posting.classic.injEq] at h
    subst h
    refine ⟨rfl, List.contains_iff_mem.1 hin, ?_, ?_, ?_, ?_⟩
    · show am = none ↔ _
      unfold firstAmount at hf
      have hj : (trim (joinWith [' '] (splitWs amt))).isEmpty = true ↔ allWs amt := by
        rw [List.isEmpty_iff, trim_eq_nil, ← splitWs_eq_nil, splitWs_join _ (splitWs_isWord amt), splitWs_eq_nil]
      split at hf
      · rename_i he
        cases hf
        exact ⟨fun _ => hj.1 he, fun _ => rfl⟩
      · rename_i he
        cases ha : (Amount.parse (joinWith [' '] (splitWs amt)) dec : Res (Amount M)) with
        | error f => rw [ha] at hf; cases hf
        | ok a =>
          rw [ha] at hf; cases hf
          exact ⟨fun e => (by cases e), fun e => absurd (hj.2 e) he⟩
    · intro x a hx
      show _ ↔ ba = some a
      rw [hfind _ _ hx] at hb
      cases ha : (Amount.parse (joinWith s%" " (splitWs x)) dec : Res (Amount M)) with
      | error f => rw [ha] at hb; cases hb
      | ok b =>
        rw [ha] at hb
        cases hb
        simp
    · intro x a hx
      show _ ↔ co = some (.unit a)
      unfold clauseCost at hco
      rw [hfind _ _ hx] at hco
      cases ha : (Amount.parse (joinWith s%" " (splitWs x)) dec : Res (Amount M)) with
      | error f => rw [ha] at hco; cases hco
      | ok b =>
        rw [ha] at hco
        cases hco
        simp
    · intro hn x a hx
      show _ ↔ co = some (.total a)
      unfold clauseCost at hco
      rw [hnone hn, hfind _ _ hx] at hco
      cases ha : (Amount.parse (joinWith s%" " (splitWs x)) dec : Res (Amount M)) with
      | error f => rw [ha] at hco; cases hco
      | ok b =>
        rw [ha] at hco
        cases hco
        simp
  · rw [if_neg hin] at h
    cases h

/-! ### C10 -/

theorem Posting.parse_first_word (l : Str) (dec : Char) (accs : List Str) (p : Posting M) {w : Str} {ts : List Str}
    (h : Posting.parse l dec accs = .ok p) (hw : splitWs (removeComments l) = w :: ts) (he : w ≠ s%"envelope") :
    w ∈ accs ∧ p.isEnvelope = false ∧ p.account = w := by
  have hw' : splitWs (trim (removeComments l)) = w :: ts := by rw [splitWs_trim]; exact hw
  rw [Posting.parse_classic l dec accs hw' he] at h
  cases hc : (Classic.parse l dec accs : Res (Classic M)) with
  | error f => rw [hc] at h; cases h
  | ok c =>
    rw [hc] at h
    cases h
    have h1 := Classic.parse_account _ _ _ _ hc
    have h2 : c.account = w := by
      unfold Classic.parse at hc
      rw [hw'] at hc
      simp only [bind, Except.bind, pure, Except.pure] at hc
      split at hc
      · cases hc
      · split at hc
        · cases hc
        · split at hc
          · cases hc
          · split at hc
            · cases hc; rfl
            · cases hc
    exact ⟨h2 ▸ h1, rfl, h2⟩

theorem parsePostings_first_words (dec : Char) (accs : List Str) (ls : List Str) (ps : List (Posting M))
    (h : Entry.parsePostings dec accs ls = .ok ps) :
    ∀ l ∈ ls, ∀ w ts, splitWs (removeComments l) = w :: ts → w ≠ s%"envelope" → w ∈ accs := by
  induction ls generalizing ps with
  | nil => intro l hl; cases hl
  | cons m ls ih =>
    simp only [Entry.parsePostings] at h
    have hrest : ∃ qs, Entry.parsePostings (M := M) dec accs ls = .ok qs := by
      split at h
      · exact ⟨ps, h⟩
      · simp only [bind, Except.bind, pure, Except.pure] at h
        split at h
        · cases h
        · split at h
          · cases h
          · rename_i qs hq; exact ⟨qs, hq⟩
    obtain ⟨qs, hq⟩ := hrest
    intro l hl w ts hw he
    rcases List.mem_cons.1 hl with rfl | hl
    · split at h
      · rename_i hb
        rw [List.isEmpty_iff, trim_eq_nil] at hb
        have : splitWs (removeComments l) = [] := by
          rw [removeComments_eq_rc, rc_allWs hb]
          exact splitWs_allWs hb
        rw [this] at hw; cases hw
      · simp only [bind, Except.bind, pure, Except.pure] at h
        split at h
        · cases h
        · rename_i p hp
          exact (Posting.parse_first_word l dec accs p hp hw he).1
    · exact ih qs hq l hl w ts hw he

/-- C10. If an entry text is accepted, then the first word of every posting line, unless it is `envelope`,
is a declared account. -/
theorem C10_undeclared_is_rejected_partial (env : Env) (chunk fmt : Str) (dec : Char) (accs : List Str) (e : Entry M)
    (h : Entry.parse env chunk fmt dec accs = .ok e) :
    ∀ l ∈ (lines (trim chunk)).tail, ∀ w ts, splitWs (removeComments l) = w :: ts →
      w ≠ s%"envelope" → w ∈ accs := by
  unfold Entry.parse at h
  simp only at h
  split at h
  · cases h
  · split at h
    · cases h
    · rename_i hd ls hl
      rw [hl, List.tail_cons]
      simp only [bind, Except.bind, pure, Except.pure] at h
      split at h
      · cases h
      · split at h
        · cases h
        · rename_i ps hps
          exact parsePostings_first_words dec accs ls ps hps

/-- The accounts declared by items. -/
def declaredBy (is : List (Item M)) : List Str :=
  is.filterMap fun i => match i with
    | .account a => some a.name
    | _ => none

theorem steps_declared (env : Env) (l l' : Ledger M) (is : List (Item M)) (h : Steps env l is l') :
    ∀ n ∈ l'.accountNames, n ∈ l.accountNames ∨ n ∈ declaredBy is := by
  induction h with
  | refl => intro n hn; exact Or.inl hn
  | @tail is i l1 l2 _ hs ih =>
    have happ : declaredBy (is ++ [i]) = declaredBy is ++ declaredBy [i] := by simp [declaredBy]
    intro n hn
    rw [happ, List.mem_append]
    have back : n ∈ l1.accountNames → n ∈ l.accountNames ∨ n ∈ declaredBy is ∨ n ∈ declaredBy [i] :=
      fun h => (ih n h).elim Or.inl fun h => Or.inr (Or.inl h)
    cases hs with
    | account chunk a hp =>
      unfold Ledger.accountNames at hn
      simp only [mapInsert_keys] at hn
      split at hn
      · exact back hn
      · rcases List.mem_append.1 hn with hn | hn
        · exact back hn
        · simp at hn
          right; right
          simp [declaredBy, hn]
    | entry _ chunk e hp h' =>
      obtain ⟨accs, h1, rfl, _⟩ := addEntry_ok _ _ _ _ h'
      obtain ⟨h2, _⟩ := processAll_ok _ _ _ _ h1
      apply back
      unfold Ledger.accountNames at hn ⊢
      rw [h2] at hn
      exact hn
    | currency => exact back hn
    | dateFormat => exact back hn

/-- C10. In a journal that is loaded, every ordinary posting of an entry is to an account declared by an item
before that entry. -/
theorem C10_declared_before_partial (env : Env) (path : Str) (is pre post : List (Item M)) (l : Ledger M)
    (e : Entry M) (h : Steps env (Ledger.new path) is l) (hs : is = pre ++ .entry e :: post) :
    ∀ p ∈ e.postings, p.isEnvelope = false → p.account ∈ declaredBy pre := by
  obtain ⟨l1, l2, h1, h2⟩ := steps_split env _ _ is h pre post _ hs
  cases h2 with
  | entry _ chunk _ hp _ =>
    intro p hm he
    have := (Entry.parse_ok _ _ _ _ _ _ hp).1 p hm he
    rcases steps_declared env _ _ pre h1 _ this with h | h
    · simp [Ledger.new, Ledger.accountNames] at h
    · exact h

/-- C10. Whatever is loaded from files is such a sequence of items. -/
theorem C10_loaded_partial (env : Env) (fuel : Nat) (w w' : World) (path : Str) (l : Ledger M)
    (h : Ledger.fromFile env fuel w path = .ok (l, w')) :
    ∀ e ∈ l.entries, ∀ p ∈ e.postings, p.isEnvelope = false → p.account ∈ l.accountNames :=
  (loaded_inv env fuel w w' path l h).declared

/-- C10 is false of envelope postings: neither the account nor the envelope need exist. -/
theorem C10_envelope_postings_unchecked :
    ∃ l, loadText Rat "account a\n2024/01/05 * x\n a 10\n a -10\n envelope nowhere nothing 10\n" = .ok l ∧
      l.accountNames = [s%"a"] ∧ ∃ e, l.entries = [e] ∧ ∃ p, p ∈ e.postings ∧ p.account = s%"nowhere" := by
  refine ⟨_, rfl, by decide +kernel, _, rfl, .envelope ⟨s%"nowhere", s%"nothing", ⟨10, none⟩⟩, ?_, rfl⟩
  decide +kernel

example : (loadText Rat "account a\n2024/01/05 * x\n a 10\n b -10\n").map (fun _ => ()) = fail .validation := by
  decide +kernel

/-! ### C11 -/

/-- The posting with its magnitudes rounded to 8 decimals. -/
def Cost.rounded : Cost M → Cost M
  | .total a => .total a.rounded
  | .unit a => .unit a.rounded

/-- The posting with its magnitudes rounded to 8 decimals. -/
def Posting.rounded : Posting M → Posting M
  | .classic c => .classic ⟨c.account, c.amount.map Amount.rounded, c.cost.map Cost.rounded, c.balance.map Amount.rounded⟩
  | .envelope e => .envelope ⟨e.account, e.envelope, e.amount.rounded⟩

/-- The amount inside a cost. -/
def Cost.amount : Cost M → Amount M
  | .total a => a
  | .unit a => a

/-- A name that is one word without comment marks. -/
def Name (s : Str) : Prop := isWord s ∧ NoComment s

/-- Postings whose names and symbols are single tokens, free of comment marks and operators. -/
def Posting.Writable : Posting M → Prop
  | .classic c => Name c.account ∧ c.account ≠ s%"envelope" ∧ (∀ a, c.amount = some a → Printable a) ∧
      (∀ a, c.cost = some a → Printable a.amount) ∧ (∀ a, c.balance = some a → Printable a)
  | .envelope e => Name e.account ∧ Name e.envelope ∧ Printable e.amount

theorem clean_env : rc s%"envelope" = s%"envelope" := by decide

theorem word_env : isWord s%"envelope" := ⟨by decide, by decide⟩

/-- The words of a printed cost. -/
theorem cost_toks (x : Str) (y : Cost M) :
    splitWs (x ++ ' ' :: y.display) = splitWs x ++ clauseToks [((match y with | .total _ => s%"=" | .unit _ => s%"@"),
      splitWs y.amount.display)] := by
  rw [splitWs_append_ws _ isWs_space]
  cases y with
  | total a =>
    simp only [Cost.display, Cost.amount, clauseToks, List.append_nil]
    congr 1
  | unit a =>
    simp only [Cost.display, Cost.amount, clauseToks, List.append_nil]
    congr 1

theorem balance_toks (x : Str) (b : Amount M) :
    splitWs (x ++ (s%" ! " ++ b.display)) = splitWs x ++ clauseToks [(s%"!", splitWs b.display)] := by
  rw [show s%" ! " ++ b.display = ' ' :: (s%"!" ++ ' ' :: b.display) from rfl, splitWs_append_ws _ isWs_space,
    splitWs_append_ws _ isWs_space]
  simp only [clauseToks, List.append_nil]
  rfl

theorem clauseToks_append (a b : List (Str × List Str)) : clauseToks (a ++ b) = clauseToks a ++ clauseToks b := by
  induction a with
  | nil => rfl
  | cons c a ih => simp [clauseToks, ih]

theorem joinWith_ne_blank {ts : List Str} (h : ∀ t ∈ ts, isWord t) (hne : ts ≠ []) :
    (trim (joinWith [' '] ts)).isEmpty = false := by
  cases hb : (trim (joinWith [' '] ts)).isEmpty with
  | false => rfl
  | true =>
    rw [List.isEmpty_iff, trim_eq_nil, ← splitWs_eq_nil, splitWs_join _ h] at hb
    exact absurd hb hne

/-- The printed posting has no comment mark. -/
theorem Posting.display_clean (p : Posting M) (h : p.Writable) : rc p.display = p.display := by
  cases p with
  | envelope e =>
    obtain ⟨h1, h2, h3⟩ := h
    obtain ⟨_, _, _, hc, _⟩ := h3.toks
    show rc (EnvPosting.display e) = EnvPosting.display e
    unfold EnvPosting.display
    have : rc (s%"envelope " ++ e.account ++ ' ' :: e.envelope) = s%"envelope " ++ e.account ++ ' ' :: e.envelope := by
      have n1 := (noComment_iff _).1 h1.2
      have n2 := (noComment_iff _).1 h2.2
      rw [show s%"envelope " ++ e.account ++ ' ' :: e.envelope = s%"envelope" ++ ' ' :: (e.account ++ ' ' :: e.envelope) by simp,
        rc_space clean_env, rc_space n1, n2]
    rw [rc_pad this, hc]
  | classic c =>
    obtain ⟨h1, _, h3, h4, h5⟩ := h
    show rc (Classic.display c) = Classic.display c
    unfold Classic.display
    simp only
    rw [rc_pad ((noComment_iff _).1 h1.2)]
    congr 2
    have ha : rc (match c.amount with | some a => a.display | none => []) =
        (match c.amount with | some a => a.display | none => []) := by
      cases hca : c.amount with
      | none => rfl
      | some a => exact (h3 a hca).toks.2.2.2.1
    have hco : rc (match c.cost with | some x => ' ' :: x.display | none => []) =
        (match c.cost with | some x => ' ' :: x.display | none => []) := by
      cases hcc : c.cost with
      | none => rfl
      | some y =>
        have := (h4 y hcc).toks.2.2.2.1
        cases y with
        | total a =>
          show rc (' ' :: (s%" = " ++ a.display)) = _
          rw [show ' ' :: (s%" = " ++ a.display) = s%"  =" ++ ' ' :: a.display by rfl, rc_space (by decide)]
          rw [show rc a.display = a.display from this]
          rfl
        | unit a =>
          show rc (' ' :: (s%" @ " ++ a.display)) = _
          rw [show ' ' :: (s%" @ " ++ a.display) = s%"  @" ++ ' ' :: a.display by rfl, rc_space (by decide)]
          rw [show rc a.display = a.display from this]
          rfl
    have hba : rc (match c.balance with | some b => s%" ! " ++ b.display | none => []) =
        (match c.balance with | some b => s%" ! " ++ b.display | none => []) := by
      cases hcb : c.balance with
      | none => rfl
      | some b =>
        have := (h5 b hcb).toks.2.2.2.1
        show rc (s%" ! " ++ b.display) = _
        rw [show s%" ! " ++ b.display = s%" !" ++ ' ' :: b.display by rfl, rc_space (by decide), this]
        rfl
    have hh1 : ∀ o : Option (Cost M), (match o with | some x => ' ' :: x.display | none => []).head? ≠ some '/' := by
      intro o; cases o <;> simp
    have hh2 : ∀ o : Option (Amount M), (match o with | some b => s%" ! " ++ b.display | none => []).head? ≠ some '/' := by
      intro o; cases o <;> simp
    have h6 := rc_append ha (hh1 c.cost)
    rw [hco] at h6
    exact (rc_append h6 (hh2 c.balance)).trans (congrArg _ hba)

/-- C11. The text of a posting, indented or not, reads back as the posting rounded to 8 decimals. -/
theorem C11_round_trip (p : Posting M) (h : p.Writable) (accs : List Str)
    (hacc : p.isEnvelope = false → p.account ∈ accs) (ind : Str) (hind : allWs ind) :
    Posting.parse (ind ++ p.display) '.' accs = .ok p.rounded := by
  have hclean := Posting.display_clean p h
  have hrc : rc (ind ++ p.display) = ind ++ p.display := by
    have key : ∀ l : Str, allWs l → ∀ t, rc t = t → rc (l ++ t) = l ++ t := by
      intro l hl t ht
      induction l with
      | nil => exact ht
      | cons c l ih =>
        rw [List.cons_append, rc, startsMark_ws (hl c (by simp))]
        simp only [Bool.false_eq_true, if_false]
        rw [ih fun d hd => hl d (by simp [hd])]
    exact key ind hind _ hclean
  have hws : splitWs (trim (removeComments (ind ++ p.display))) = splitWs p.display := by
    rw [removeComments_eq_rc, hrc, splitWs_trim, splitWs_ws_left hind]
  cases p with
  | envelope e =>
    obtain ⟨h1, h2, h3⟩ := h
    obtain ⟨_, _, hp, hc, _⟩ := h3.toks
    have hs : splitWs (Posting.envelope e).display = s%"envelope" :: e.account :: e.envelope :: splitWs e.amount.display := by
      show splitWs (EnvPosting.display e) = _
      unfold EnvPosting.display
      unfold padRight
      generalize hk : List.replicate (50 - (s%"envelope " ++ e.account ++ ' ' :: e.envelope).length) ' ' = k
      have hkw : allWs (k ++ [' ']) := by
        rw [allWs_append, ← hk]; exact ⟨allWs_replicate _, allWs_replicate 1⟩
      rw [show s%"envelope " ++ e.account ++ ' ' :: e.envelope ++ k ++ ' ' :: e.amount.display =
        s%"envelope" ++ [' '] ++ (e.account ++ [' '] ++ (e.envelope ++ (k ++ [' ']) ++ e.amount.display)) by simp,
        splitWs_cons_gap (g := [' ']) word_env (allWs_replicate 1) (by simp),
        splitWs_cons_gap (g := [' ']) h1.1 (allWs_replicate 1) (by simp),
        splitWs_cons_gap h2.1 hkw (by simp)]
    unfold Posting.parse
    simp only [hws, hs, if_true]
    unfold EnvPosting.parse
    rw [hws, hs]
    simp only [List.drop_succ_cons, List.drop_zero, hp, bind, Except.bind, pure, Except.pure]
    rfl
  | classic c =>
    have hw := h
    obtain ⟨h1, h2, h3, h4, h5⟩ := h
    -- the clauses written
    let cl : List (Str × List Str) :=
      (match c.cost with
        | some y => [((match y with | .total _ => s%"=" | .unit _ => s%"@"), splitWs y.amount.display)]
        | none => []) ++
      (match c.balance with | some b => [(s%"!", splitWs b.display)] | none => [])
    let am : List Str := match c.amount with | some a => splitWs a.display | none => []
    have hs : splitWs (Posting.classic c).display = c.account :: (am ++ clauseToks cl) := by
      show splitWs (Classic.display c) = _
      unfold Classic.display
      simp only
      rw [splitWs_pad h1.1]
      congr 1
      have e1 : splitWs ((match c.amount with | some a => a.display | none => []) ++
          (match c.cost with | some x => ' ' :: x.display | none => [])) =
          am ++ clauseToks (match c.cost with
            | some y => [((match y with | .total _ => s%"=" | .unit _ => s%"@"), splitWs y.amount.display)]
            | none => []) := by
        have e0 : splitWs (match c.amount with | some a => a.display | none => []) = am := by
          show _ = (match c.amount with | some a => splitWs a.display | none => [])
          cases c.amount <;> rfl
        cases c.cost with
        | none => simp only [List.append_nil, clauseToks]; exact e0
        | some y => rw [← e0]; exact cost_toks _ y
      show _ = am ++ clauseToks (_ ++ _)
      rw [clauseToks_append, ← List.append_assoc, ← e1]
      cases c.balance with
      | none => simp only [List.append_nil, clauseToks]; rfl
      | some b => exact balance_toks _ b
    have hcl : Clauses am cl := by
      have hamt : ∀ t ∈ am, isOp t = false := by
        intro t ht
        cases hca : c.amount with
        | none => simp [am, hca] at ht
        | some a => simp only [am, hca] at ht; exact (h3 a hca).toks.1 t ht
      refine ⟨hamt, ?_, ?_, ?_⟩
      · intro d hd
        cases hcc : c.cost with
        | none =>
          cases hcb : c.balance with
          | none => simp [cl, hcc, hcb] at hd
          | some b => simp [cl, hcc, hcb] at hd; rw [hd]; simp [opStrs]
        | some y =>
          cases hcb : c.balance with
          | none =>
            simp [cl, hcc, hcb] at hd; rw [hd]
            cases y <;> simp [opStrs]
          | some b =>
            simp [cl, hcc, hcb] at hd
            rcases hd with hd | hd <;> rw [hd]
            · cases y <;> simp [opStrs]
            · simp [opStrs]
      · cases hcc : c.cost with
        | none =>
          cases hcb : c.balance with
          | none => simp [cl, hcc, hcb]
          | some b => simp [cl, hcc, hcb]
        | some y =>
          cases hcb : c.balance with
          | none => simp [cl, hcc, hcb]
          | some b => cases y <;> simp [cl, hcc, hcb]
      · intro d hd t ht
        cases hcc : c.cost with
        | none =>
          cases hcb : c.balance with
          | none => simp [cl, hcc, hcb] at hd
          | some b => simp [cl, hcc, hcb] at hd; rw [hd] at ht; exact (h5 b hcb).toks.1 t ht
        | some y =>
          cases hcb : c.balance with
          | none => simp [cl, hcc, hcb] at hd; rw [hd] at ht; exact (h4 y hcc).toks.1 t ht
          | some b =>
            simp [cl, hcc, hcb] at hd
            rcases hd with hd | hd <;> rw [hd] at ht
            · exact (h4 y hcc).toks.1 t ht
            · exact (h5 b hcb).toks.1 t ht
    rw [hs] at hws
    rw [Posting.parse_classic _ _ _ hws h2, Classic.parse_clauses hws hcl]
    have f1 : (firstAmount am '.' : Res (Option (Amount M))) = .ok (c.amount.map Amount.rounded) := by
      unfold firstAmount
      cases hca : c.amount with
      | none =>
        have : am = [] := by simp [am, hca]
        rw [this]; rfl
      | some a =>
        have : am = splitWs a.display := by simp [am, hca]
        obtain ⟨_, hj, _, _, hne⟩ := (h3 a hca).toks
        rw [this, joinWith_ne_blank (splitWs_isWord _) hne, hj]
        rfl
    have f2 : (clauseAmount cl '.' s%"!" : Res (Option (Amount M))) = .ok (c.balance.map Amount.rounded) := by
      unfold clauseAmount
      cases hcb : c.balance with
      | none =>
        have : cl.find? (fun c => c.1 == s%"!") = none := by
          cases hcc : c.cost with
          | none => simp [cl, hcc, hcb]
          | some y => cases y <;> simp [cl, hcc, hcb]
        rw [this]; rfl
      | some b =>
        have : cl.find? (fun c => c.1 == s%"!") = some (s%"!", splitWs b.display) := by
          cases hcc : c.cost with
          | none => simp [cl, hcc, hcb]
          | some y => cases y <;> simp [cl, hcc, hcb]
        obtain ⟨_, hj, _, _, hne⟩ := (h5 b hcb).toks
        rw [this]
        simp only [hj]
        rfl
    have f3 : (clauseCost cl '.' : Res (Option (Cost M))) = .ok (c.cost.map Cost.rounded) := by
      unfold clauseCost clauseAmount
      cases hcc : c.cost with
      | none =>
        have e1 : cl.find? (fun c => c.1 == s%"@") = none := by
          cases hcb : c.balance <;> simp [cl, hcc, hcb]
        have e2 : cl.find? (fun c => c.1 == s%"=") = none := by
          cases hcb : c.balance <;> simp [cl, hcc, hcb]
        rw [e1, e2]; rfl
      | some y =>
        obtain ⟨_, hj, _, _, hne⟩ := (h4 y hcc).toks
        cases y with
        | unit a =>
          have e1 : cl.find? (fun c => c.1 == s%"@") = some (s%"@", splitWs a.display) := by
            simp [cl, hcc, Cost.amount]
          rw [e1]
          simp only [Cost.amount] at hj
          simp only [hj]
          rfl
        | total a =>
          have e1 : cl.find? (fun c => c.1 == s%"@") = none := by
            cases hcb : c.balance <;> simp [cl, hcc, hcb]
          have e2 : cl.find? (fun c => c.1 == s%"=") = some (s%"=", splitWs a.display) := by
            simp [cl, hcc, Cost.amount]
          rw [e1, e2]
          simp only [Cost.amount] at hj
          simp only [hj]
          rfl
    rw [f1, f2, f3]
    have hin : accs.contains c.account = true := List.contains_iff_mem.2 (hacc rfl)
    simp only [bind, Except.bind, pure, Except.pure, hin, if_true]
    rfl

/-- C11, in the arithmetic of the program, with the conditions on amounts spelled out. -/
theorem C11_printable_f64 (a : Amount F64) (h : (round8 a.mag).finite = true)
    (hs : ∀ s, a.sym = some s → ValidSymbol '.' s ∧ NoComment s ∧ s ∉ [s%"!", s%"!!", s%"@", s%"="]) :
    Printable a :=
  ⟨fmtOk_f64 h, fun s hs' => ⟨(hs s hs').1, (hs s hs').2.1, isOp_false (hs s hs').2.2⟩⟩

theorem C11_printable_exact (a : Amount Rat)
    (hs : ∀ s, a.sym = some s → ValidSymbol '.' s ∧ NoComment s ∧ s ∉ [s%"!", s%"!!", s%"@", s%"="]) :
    Printable a :=
  ⟨fmtOk_rat _, fun s hs' => ⟨(hs s hs').1, (hs s hs').2.1, isOp_false (hs s hs').2.2⟩⟩

/-- C11 needs its conditions: an amount of 5 `@`, which can be written `@5`, is printed `@ 5` and then read
as a price. -/
theorem C11_operator_symbol :
    Posting.parse s%"a @5" '.' [s%"a"] = .ok (.classic ⟨s%"a", some (⟨5, some s%"@"⟩ : Amount Rat), none, none⟩) ∧
    Posting.parse (Posting.display (.classic ⟨s%"a", some (⟨5, some s%"@"⟩ : Amount Rat), none, none⟩)) '.' [s%"a"] =
      .ok (.classic ⟨s%"a", none, some (.unit (⟨5, none⟩ : Amount Rat)), none⟩) := by decide +kernel

example : (Posting.classic ⟨s%"assets:bank", some (⟨5, some s%"BTC"⟩ : Amount Rat), some (.unit ⟨3 / 2, some s%"$"⟩),
    some ⟨-10, some s%"BTC"⟩⟩).Writable := by
  have n : ∀ s : Str, s ≠ [] → (∀ c ∈ s, isWs c = false) → NoComment s → Name s := fun s h1 h2 h3 => ⟨⟨h1, h2⟩, h3⟩
  refine ⟨n _ (by decide) (by decide) (by decide), by decide, ?_, ?_, ?_⟩
  · rintro a ⟨⟩
    exact C11_printable_exact _ (by rintro s ⟨⟩; decide)
  · rintro a ⟨⟩
    exact C11_printable_exact _ (by rintro s ⟨⟩; decide)
  · rintro a ⟨⟩
    exact C11_printable_exact _ (by rintro s ⟨⟩; decide)

end Silverfox
