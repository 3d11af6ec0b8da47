import Verif.Model.Flags

/-
Loading a journal, as a sequence of steps; maps; sorting.
-/

namespace Silverfox

set_option linter.unusedSectionVars false
variable {M : Type} [Mag M]

/-! ### Steps -/

/-- An item of a journal, as read. -/
inductive Item (M : Type) where
  | account (a : Account M)
  | entry (e : Entry M)
  | currency (v : Str)
  | dateFormat (v : Str)

/-- The effect of an item. -/
def Item.run (env : Env) (l : Ledger M) : Item M → Res (Ledger M)
  | .account a => .ok { l with accounts := mapInsert l.accounts a.name a }
  | .entry e => l.addEntry env e
  | .currency v => .ok { l with currency := v }
  | .dateFormat v => .ok { l with dateFormat := v }

/-- One item of a journal, read from its text. -/
inductive Step (env : Env) : Ledger M → Item M → Ledger M → Prop
  | account (l : Ledger M) (chunk : Str) (a : Account M)
      (h : Account.parse env chunk l.decimal l.dateFormat = .ok a) :
      Step env l (.account a) { l with accounts := mapInsert l.accounts a.name a }
  | entry (l l' : Ledger M) (chunk : Str) (e : Entry M)
      (h : Entry.parse env chunk l.dateFormat l.decimal l.accountNames = .ok e)
      (h' : l.addEntry env e = .ok l') : Step env l (.entry e) l'
  | currency (l : Ledger M) (v : Str) : Step env l (.currency v) { l with currency := v }
  | dateFormat (l : Ledger M) (v : Str) : Step env l (.dateFormat v) { l with dateFormat := v }

/-- A sequence of items. -/
inductive Steps (env : Env) (l : Ledger M) : List (Item M) → Ledger M → Prop
  | refl : Steps env l [] l
  | tail {is : List (Item M)} {i : Item M} {l1 l2 : Ledger M} :
      Steps env l is l1 → Step env l1 i l2 → Steps env l (is ++ [i]) l2

theorem Steps.trans {env : Env} {l1 l2 l3 : Ledger M} {is js : List (Item M)}
    (h : Steps env l1 is l2) (h' : Steps env l2 js l3) : Steps env l1 (is ++ js) l3 := by
  induction h' with
  | refl => simpa using h
  | tail _ hs ih => rw [← List.append_assoc]; exact .tail ih hs

theorem Steps.single {env : Env} {l1 l2 : Ledger M} {i : Item M} (h : Step env l1 i l2) :
    Steps env l1 [i] l2 :=
  .tail .refl h

/-- Loading goes from one ledger to another by steps and changes no file. -/
def LoadOk (env : Env) (st st' : Ledger M × World) : Prop :=
  (∃ is, Steps env st.1 is st'.1) ∧ st'.2.file = st.2.file ∧ st'.2.canAppend = st.2.canAppend

theorem LoadOk.trans {env : Env} {a b c : Ledger M × World} (h : LoadOk env a b)
    (h' : LoadOk env b c) : LoadOk env a c := by
  obtain ⟨⟨is, h1⟩, h2, h3⟩ := h
  obtain ⟨⟨js, h4⟩, h5, h6⟩ := h'
  exact ⟨⟨_, h1.trans h4⟩, by rw [h5, h2], by rw [h6, h3]⟩

theorem parseChunk_sound (env : Env) (inc : Ledger M × World → Str → Res (Ledger M × World))
    (hinc : ∀ st p st', inc st p = .ok st' → LoadOk env st st') (st st' : Ledger M × World)
    (chunk : Str) (h : Ledger.parseChunk env inc st chunk = .ok st') : LoadOk env st st' := by
  have hrefl : LoadOk env st st := ⟨⟨_, .refl⟩, rfl, rfl⟩
  unfold Ledger.parseChunk at h
  split at h
  · cases h; exact hrefl
  · split at h
    · cases h; exact hrefl
    · split at h
      · simp only [bind, Except.bind, pure, Except.pure] at h
        split at h
        · cases h
        · rename_i l hl
          cases h
          unfold Ledger.parseAccount at hl
          simp only [bind, Except.bind, pure, Except.pure] at hl
          split at hl
          · cases hl
          · rename_i a ha
            cases hl
            exact ⟨⟨_, .single (.account _ _ _ ha)⟩, rfl, rfl⟩
      · split at h
        · split at h
          · cases h; exact ⟨⟨_, .single (.currency _ _)⟩, rfl, rfl⟩
          · cases h
        · split at h
          · split at h
            · cases h; exact ⟨⟨_, .single (.dateFormat _ _)⟩, rfl, rfl⟩
            · cases h
          · split at h
            · split at h
              · exact hinc _ _ _ h
              · cases h
            · simp only [bind, Except.bind, pure, Except.pure] at h
              split at h
              · cases h
              · rename_i l hl
                cases h
                unfold Ledger.parseEntry at hl
                simp only [bind, Except.bind] at hl
                split at hl
                · cases hl
                · rename_i e he
                  exact ⟨⟨_, .single (.entry _ _ _ _ he hl)⟩, rfl, rfl⟩

theorem addLinesFrom_sound (env : Env) (inc : Ledger M × World → Str → Res (Ledger M × World))
    (hinc : ∀ st p st', inc st p = .ok st' → LoadOk env st st') (ls : List Str)
    (st st' : Ledger M × World) (chunk : Str)
    (h : Ledger.addLinesFrom env inc ls st chunk = .ok st') : LoadOk env st st' := by
  induction ls generalizing st chunk with
  | nil => exact parseChunk_sound env inc hinc st st' chunk h
  | cons l ls ih =>
    simp only [Ledger.addLinesFrom] at h
    split at h
    · exact ih _ _ h
    · split at h
      · exact ih _ _ h
      · simp only [bind, Except.bind] at h
        split at h
        · cases h
        · rename_i st1 h1
          exact (parseChunk_sound env inc hinc st st1 chunk h1).trans (ih _ _ h)

theorem addFromFile_sound (env : Env) (fuel : Nat) (st st' : Ledger M × World) (path : Str)
    (h : Ledger.addFromFile env fuel st path = .ok st') : LoadOk env st st' := by
  induction fuel generalizing st st' path with
  | zero => cases h
  | succ f ih =>
    simp only [Ledger.addFromFile] at h
    split at h
    · cases h
    · have := addLinesFrom_sound env (Ledger.addFromFile env f) (fun st p st' h => ih st st' p h) _ _ _ _ h
      exact ⟨this.1, this.2.1, this.2.2⟩

/-- A loaded ledger comes from the empty one by steps; no file is changed by loading. -/
theorem fromFile_sound (env : Env) (fuel : Nat) (w w' : World) (path : Str) (l : Ledger M)
    (h : Ledger.fromFile env fuel w path = .ok (l, w')) :
    (∃ is, Steps env (Ledger.new path) is l) ∧ w'.file = w.file ∧ w'.canAppend = w.canAppend :=
  addFromFile_sound env fuel _ _ path h

/-! ### addEntry -/

theorem processAll_ok (today : Date) (e : Entry M) (as as' : List (Str × Account M))
    (h : Ledger.processAll today e as = .ok as') :
    as'.map Prod.fst = as.map Prod.fst ∧
    ∀ k a', (k, a') ∈ as' → ∃ a, (k, a) ∈ as ∧ a.processEntry today e = .ok a' := by
  induction as generalizing as' with
  | nil => cases h; simp
  | cons p as ih =>
    obtain ⟨k, a⟩ := p
    simp only [Ledger.processAll, bind, Except.bind, pure, Except.pure] at h
    split at h
    · cases h
    · rename_i a1 h1
      split at h
      · cases h
      · rename_i as1 h2
        cases h
        obtain ⟨h3, h4⟩ := ih as1 h2
        refine ⟨by simp [h3], fun k' a' hm => ?_⟩
        rcases List.mem_cons.1 hm with hm | hm
        · cases hm; exact ⟨a, by simp, h1⟩
        · obtain ⟨a0, h5, h6⟩ := h4 k' a' hm
          exact ⟨a0, by simp [h5], h6⟩

theorem addEntry_ok (env : Env) (l l' : Ledger M) (e : Entry M) (h : l.addEntry env e = .ok l') :
    ∃ accs, Ledger.processAll env.today e l.accounts = .ok accs ∧
      l' = { l with accounts := accs
                    entries := stableSort (fun a b => Date.lt a.date b.date) (l.entries ++ [e]) } ∧
      ∃ accs', Ledger.processAll env.today e (env.ord l.accounts) = .ok accs' := by
  unfold Ledger.addEntry at h
  simp only [bind, Except.bind, pure, Except.pure] at h
  split at h
  · cases h
  · rename_i x hx
    split at h
    · cases h
    · rename_i accs ha
      cases h
      exact ⟨accs, ha, rfl, x, hx⟩

theorem Step.run {env : Env} {l l' : Ledger M} {i : Item M} (h : Step env l i l') :
    i.run env l = .ok l' := by
  cases h with
  | account => rfl
  | entry _ _ _ _ h' => exact h'
  | currency => rfl
  | dateFormat => rfl

theorem Step.filePath {env : Env} {l l' : Ledger M} {i : Item M} (h : Step env l i l') :
    l'.filePath = l.filePath ∧ l'.decimal = l.decimal := by
  cases h with
  | account => exact ⟨rfl, rfl⟩
  | entry _ _ _ _ h' =>
    obtain ⟨_, _, rfl, _⟩ := addEntry_ok _ _ _ _ h'
    exact ⟨rfl, rfl⟩
  | currency => exact ⟨rfl, rfl⟩
  | dateFormat => exact ⟨rfl, rfl⟩

theorem Steps.filePath {env : Env} {l l' : Ledger M} {is : List (Item M)} (h : Steps env l is l') :
    l'.filePath = l.filePath ∧ l'.decimal = l.decimal := by
  induction h with
  | refl => exact ⟨rfl, rfl⟩
  | tail _ hs ih => rw [hs.filePath.1, hs.filePath.2]; exact ih

/-! ### Maps -/

theorem mapInsert_mem {α : Type} (m : List (Str × α)) (k : Str) (v : α) (x : Str × α)
    (h : x ∈ mapInsert m k v) : x = (k, v) ∨ x ∈ m := by
  induction m with
  | nil => simp only [mapInsert, List.mem_singleton] at h; exact Or.inl h
  | cons p m ih =>
    simp only [mapInsert] at h
    split at h
    · rcases List.mem_cons.1 h with h | h
      · exact Or.inl h
      · exact Or.inr (by simp [h])
    · rcases List.mem_cons.1 h with h | h
      · exact Or.inr (by simp [h])
      · rcases ih h with h | h
        · exact Or.inl h
        · exact Or.inr (by simp [h])

theorem mapInsert_keys {α : Type} (m : List (Str × α)) (k : Str) (v : α) :
    (mapInsert m k v).map Prod.fst
      = if k ∈ m.map Prod.fst then m.map Prod.fst else m.map Prod.fst ++ [k] := by
  induction m with
  | nil => simp [mapInsert]
  | cons p m ih =>
    simp only [mapInsert]
    by_cases h : p.1 = k
    · simp [h]
    · have h' : ¬ k = p.1 := fun e => h e.symm
      simp only [h, if_false, List.map_cons, ih, List.mem_cons, h', false_or]
      split <;> simp

theorem mapInsert_nodup {α : Type} (m : List (Str × α)) (k : Str) (v : α)
    (h : (m.map Prod.fst).Nodup) : ((mapInsert m k v).map Prod.fst).Nodup := by
  rw [mapInsert_keys]
  split
  · exact h
  · rename_i hk
    refine List.nodup_append.2 ⟨h, by simp, ?_⟩
    intro a ha b hb
    simp only [List.mem_singleton] at hb
    subst hb
    rintro rfl
    exact hk ha

theorem mapGet_insert {α : Type} (m : List (Str × α)) (k k' : Str) (v : α) :
    mapGet (mapInsert m k v) k' = if k' = k then some v else mapGet m k' := by
  unfold mapGet
  induction m with
  | nil =>
    by_cases h : k' = k
    · simp [mapInsert, h]
    · have h' : ¬ k = k' := fun e => h e.symm
      simp [mapInsert, h, h']
  | cons p m ih =>
    simp only [mapInsert]
    by_cases h : p.1 = k
    · by_cases h2 : k' = k
      · simp [h, h2]
      · have h' : ¬ k = k' := fun e => h2 e.symm
        simp [h, h2, h']
    · by_cases h2 : p.1 = k'
      · have h3 : ¬ k' = k := fun e => h (h2.trans e)
        simp [h2, h3]
      · have hb : (p.1 == k') = false := by simpa using h2
        simp only [h, if_false, List.find?_cons, hb]
        exact ih

theorem mapGet_some_mem {α : Type} {m : List (Str × α)} {k : Str} {v : α} (h : mapGet m k = some v) :
    (k, v) ∈ m := by
  unfold mapGet at h
  cases hf : m.find? (fun p => p.1 == k) with
  | none => simp [hf] at h
  | some p =>
    rw [hf] at h
    simp only [Option.map_some, Option.some.injEq] at h
    have h1 := List.find?_some hf
    have h2 := List.mem_of_find?_eq_some hf
    have h3 : p.1 = k := by simpa using h1
    rw [← h3, ← h]; exact h2

theorem mapGet_of_mem {α : Type} {m : List (Str × α)} {k : Str} {v : α}
    (hn : (m.map Prod.fst).Nodup) (h : (k, v) ∈ m) : mapGet m k = some v := by
  unfold mapGet
  induction m with
  | nil => cases h
  | cons p m ih =>
    rw [List.map_cons, List.nodup_cons] at hn
    rcases List.mem_cons.1 h with h | h
    · subst h; simp
    · have : p.1 ≠ k := by
        rintro rfl
        exact hn.1 (List.mem_map.2 ⟨(p.1, v), h, rfl⟩)
      simp only [List.find?_cons, beq_eq_false_iff_ne.2 this]
      exact ih hn.2 h

theorem mapGet_none_iff {α : Type} (m : List (Str × α)) (k : Str) :
    mapGet m k = none ↔ k ∉ m.map Prod.fst := by
  unfold mapGet
  rw [Option.map_eq_none_iff, List.find?_eq_none]
  simp only [beq_iff_eq, List.mem_map, not_exists, not_and]

/-! ### Sorting -/

theorem insertBy_perm {α : Type} (lt : α → α → Bool) (a : α) (l : List α) :
    (insertBy lt a l).Perm (a :: l) := by
  induction l with
  | nil => exact List.Perm.refl _
  | cons b l ih =>
    simp only [insertBy]
    split
    · exact (ih.cons b).trans (List.Perm.swap a b l)
    · exact List.Perm.refl _

theorem stableSort_perm {α : Type} (lt : α → α → Bool) (l : List α) : (stableSort lt l).Perm l := by
  induction l with
  | nil => exact List.Perm.refl _
  | cons a l ih => exact (insertBy_perm lt a _).trans (ih.cons a)

/-- Sorted: no later element is smaller. -/
def SortedBy {α : Type} (lt : α → α → Bool) (l : List α) : Prop := l.Pairwise fun a b => lt b a = false

theorem insertBy_sorted {α : Type} (lt : α → α → Bool)
    (htrans : ∀ a b c, lt b a = false → lt c b = false → lt c a = false)
    (hasym : ∀ a b, lt a b = true → lt b a = false) (a : α) (l : List α) (h : SortedBy lt l) :
    SortedBy lt (insertBy lt a l) := by
  induction l with
  | nil => simp [insertBy, SortedBy]
  | cons b l ih =>
    unfold SortedBy at h ih ⊢
    rw [List.pairwise_cons] at h
    simp only [insertBy]
    cases hb : lt b a with
    | true =>
      simp only [if_true]
      rw [List.pairwise_cons]
      refine ⟨?_, ih h.2⟩
      intro x hx
      rcases List.mem_cons.1 ((insertBy_perm lt a l).mem_iff.1 hx) with rfl | hx
      · exact hasym _ _ hb
      · exact h.1 x hx
    | false =>
      simp only [Bool.false_eq_true, if_false]
      rw [List.pairwise_cons]
      refine ⟨?_, List.pairwise_cons.2 h⟩
      intro x hx
      rcases List.mem_cons.1 hx with rfl | hx
      · exact hb
      · exact htrans _ _ _ hb (h.1 x hx)

theorem stableSort_sorted {α : Type} (lt : α → α → Bool)
    (htrans : ∀ a b c, lt b a = false → lt c b = false → lt c a = false)
    (hasym : ∀ a b, lt a b = true → lt b a = false) (l : List α) : SortedBy lt (stableSort lt l) := by
  induction l with
  | nil => exact List.Pairwise.nil
  | cons a l ih => exact insertBy_sorted lt htrans hasym a _ ih

theorem insertBy_filter {α : Type} (lt : α → α → Bool) (p : α → Bool) (a : α) (l : List α)
    (hp : ∀ b, p a = true → p b = true → lt b a = false) :
    (insertBy lt a l).filter p = (a :: l).filter p := by
  induction l with
  | nil => rfl
  | cons b l ih =>
    simp only [insertBy]
    cases hb : lt b a with
    | true =>
      simp only [if_true]
      have h1 : ¬ (p a = true ∧ p b = true) := by
        rintro ⟨h1, h2⟩; rw [hp b h1 h2] at hb; cases hb
      rw [List.filter_cons, ih]
      cases h2 : p a <;> cases h3 : p b <;> simp_all
    | false => simp only [Bool.false_eq_true, if_false]

/-- Stability: the elements of a class of equal ones keep their order. -/
theorem stableSort_filter {α : Type} (lt : α → α → Bool) (p : α → Bool) (l : List α)
    (hp : ∀ a b, p a = true → p b = true → lt b a = false) :
    (stableSort lt l).filter p = l.filter p := by
  induction l with
  | nil => rfl
  | cons a l ih =>
    simp only [stableSort]
    rw [insertBy_filter lt p a _ (fun b h1 h2 => hp a b h1 h2), List.filter_cons, ih, List.filter_cons]

theorem insertBy_of_sorted {α : Type} (lt : α → α → Bool) (a : α) (l : List α)
    (h : ∀ b ∈ l, lt b a = false) : insertBy lt a l = a :: l := by
  cases l with
  | nil => rfl
  | cons b l => simp [insertBy, h b (by simp)]

/-- A sorted list is not changed by sorting. -/
theorem stableSort_of_sorted {α : Type} (lt : α → α → Bool) (l : List α) (h : SortedBy lt l) :
    stableSort lt l = l := by
  induction l with
  | nil => rfl
  | cons a l ih =>
    unfold SortedBy at h ih
    rw [List.pairwise_cons] at h
    simp only [stableSort]
    rw [ih h.2, insertBy_of_sorted lt a l h.1]

end Silverfox
