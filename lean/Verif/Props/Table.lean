import Verif.Model.Csv
import Verif.Codec
import Verif.Model.Importer
import Verif.Props.Import

/-
C106: how the table of an import may be written.
-/

namespace Silverfox

/-! ### The specification: ways to write a table -/

/-- The value with every quote doubled. -/
def doubled (v : Str) : Str := v.flatMap fun c => if c = '"' then ['"', '"'] else [c]

/-- `t` writes the value `v`: as it is, if it has no commas and line ends and does not begin with a quote; or between
quotes, with quotes doubled. -/
inductive WritesField : Str → Str → Prop
  | plain (v : Str) (hc : ∀ c ∈ v, c ≠ ',' ∧ c ≠ '\n' ∧ c ≠ '\r') (hq : v.head? ≠ some '"') : WritesField v v
  | quoted (v : Str) : WritesField v ('"' :: doubled v ++ ['"'])

/-- `t` writes the record: its fields with commas in between. A record is not an empty line. -/
inductive WritesFields : List Str → Str → Prop
  | one (v t : Str) (h : WritesField v t) : WritesFields [v] t
  | more (v t : Str) (r : List Str) (u : Str) (h : WritesField v t) (hr : WritesFields r u) :
    WritesFields (v :: r) (t ++ ',' :: u)

/-- Line feeds and carriage returns. -/
def LineEnds (t : Str) : Prop := ∀ c ∈ t, c = '\n' ∨ c = '\r'

/-- `t` writes the table: its records in order, each ended by line feeds or carriage returns (more than one for empty
lines in between); the last one may be ended by the end of the text. -/
inductive WritesRows : List (List Str) → Str → Prop
  | nil : WritesRows [] []
  | last (r : List Str) (t : Str) (h : WritesFields r t) (hne : t ≠ []) : WritesRows [r] t
  | row (r : List Str) (t e : Str) (rs : List (List Str)) (u : Str) (h : WritesFields r t) (hne : t ≠ [])
    (he : LineEnds e) (hne' : e ≠ []) (hr : WritesRows rs u) : WritesRows (r :: rs) (t ++ e ++ u)

/-- A whole table: a byte order mark and empty lines may come first; all records have the same number of fields. -/
structure WritesTable (rs : List (List Str)) (t : Str) : Prop where
  rows : ∃ mark e u : Str, (mark = [] ∨ mark = ['\uFEFF']) ∧ LineEnds e ∧ WritesRows rs u ∧ t = mark ++ e ++ u ∧
    (mark = [] → t.head? ≠ some '\uFEFF')
  width : ∃ n, ∀ r ∈ rs, r.length = n

/-! ### Proof -/

theorem isLineEnd_iff (c : Char) : isLineEnd c = true ↔ c = '\n' ∨ c = '\r' := by
  simp [isLineEnd]

theorem csvScan_plain (v : Str) (hc : ∀ c ∈ v, c ≠ ',' ∧ c ≠ '\n' ∧ c ≠ '\r') (f : Str) (r : List Str) (cs : Str) :
    csvScan .plain f r (v ++ cs) = csvScan .plain (v.reverse ++ f) r cs := by
  induction v generalizing f with
  | nil => rfl
  | cons c v ih =>
    obtain ⟨h1, h2, h3⟩ := hc c (by simp)
    simp only [List.cons_append, csvScan, h1, if_false]
    rw [if_neg (by rw [isLineEnd_iff]; grind), ih (fun c hc' => hc c (by simp [hc']))]
    simp

theorem csvScan_doubled (v : Str) (f : Str) (r : List Str) (cs : Str) :
    csvScan .quoted f r (doubled v ++ cs) = csvScan .quoted (v.reverse ++ f) r cs := by
  induction v generalizing f with
  | nil => rfl
  | cons c v ih =>
    unfold doubled at ih ⊢
    rw [List.flatMap_cons, List.append_assoc]
    by_cases hq : c = '"'
    · subst hq
      simp only [if_true, List.cons_append, List.nil_append, csvScan]
      rw [ih]; simp
    · rw [if_neg hq]
      simp only [List.cons_append, List.nil_append, csvScan, if_neg hq]
      rw [ih]; simp

/-- A field is over at the end of the text, at a comma, or at a line end. -/
def Over (rest : Str) : Prop := rest = [] ∨ ∃ c cs, rest = c :: cs ∧ (c = ',' ∨ c = '\n' ∨ c = '\r')

/-- What comes after a field `v`, when the fields before it are `r`. -/
def afterField (v : Str) (r : List Str) : Str → List (List Str)
  | [] => [(v :: r).reverse]
  | c :: cs => if c = ',' then csvScan .field [] (v :: r) cs else (v :: r).reverse :: csvScan .line [] [] cs

theorem csvScan_plain_over (f : Str) (r : List Str) (rest : Str) (ho : Over rest) :
    csvScan .plain f r rest = afterField f.reverse r rest := by
  rcases ho with rfl | ⟨c, cs, rfl, h⟩
  · rfl
  · simp only [csvScan, afterField]
    split
    · rfl
    · rw [if_pos]; rw [isLineEnd_iff]; grind

theorem csvScan_quote_over (f : Str) (r : List Str) (rest : Str) (ho : Over rest) :
    csvScan .quote f r rest = afterField f.reverse r rest := by
  rcases ho with rfl | ⟨c, cs, rfl, h⟩
  · rfl
  · simp only [csvScan, afterField]
    have : c ≠ '"' := by rcases h with rfl | rfl | rfl <;> decide
    rw [if_neg this]
    split
    · rfl
    · rw [if_pos]; rw [isLineEnd_iff]; grind

theorem csvScan_field (v t : Str) (h : WritesField v t) (r : List Str) (rest : Str) (ho : Over rest) :
    csvScan .field [] r (t ++ rest) = afterField v r rest := by
  cases h with
  | plain hc hq =>
    cases v with
    | nil =>
      rcases ho with rfl | ⟨c, cs, rfl, h⟩
      · rfl
      · simp only [List.nil_append, csvScan, afterField]
        have : c ≠ '"' := by rcases h with rfl | rfl | rfl <;> decide
        rw [if_neg this]
        split
        · rfl
        · rw [if_pos (by rw [isLineEnd_iff]; grind)]; simp
    | cons c v =>
      obtain ⟨h1, h2, h3⟩ := hc c (by simp)
      have hq' : c ≠ '"' := by simpa using hq
      simp only [List.cons_append, csvScan, if_neg hq', if_neg h1]
      rw [if_neg (by rw [isLineEnd_iff]; grind), csvScan_plain v (fun c hc' => hc c (by simp [hc'])),
        csvScan_plain_over _ _ _ ho]
      simp
  | quoted =>
    simp only [List.cons_append, csvScan, if_true, List.append_assoc, List.nil_append]
    rw [csvScan_doubled]
    simp only [csvScan, if_true]
    rw [csvScan_quote_over _ _ _ ho]
    simp

/-- At the beginning of a line the first field is read as any other, unless the line is empty. -/
theorem csvScan_line (t : Str) (hne : t ≠ []) (h : ∀ c, t.head? = some c → c ≠ '\n' ∧ c ≠ '\r') :
    csvScan .line [] [] t = csvScan .field [] [] t := by
  cases t with
  | nil => exact absurd rfl hne
  | cons c cs =>
    obtain ⟨h1, h2⟩ := h c rfl
    have : ¬ isLineEnd c = true := by rw [isLineEnd_iff]; grind
    simp only [csvScan, if_neg this]

theorem csvScan_ends (e : Str) (he : LineEnds e) (u : Str) : csvScan .line [] [] (e ++ u) = csvScan .line [] [] u := by
  induction e with
  | nil => rfl
  | cons c e ih =>
    simp only [List.cons_append, csvScan]
    rw [if_pos (by rw [isLineEnd_iff]; exact he c (by simp))]
    exact ih fun c hc => he c (by simp [hc])

theorem csvScan_fields (r : List Str) (t : Str) (h : WritesFields r t) (before : List Str) (rest : Str)
    (hrest : rest = [] ∨ ∃ c cs, rest = c :: cs ∧ (c = '\n' ∨ c = '\r')) :
    csvScan .field [] before (t ++ rest) = (before.reverse ++ r) :: csvScan .line [] [] rest := by
  induction h generalizing before with
  | one v t h =>
    have ho : Over rest := by
      rcases hrest with rfl | ⟨c, cs, rfl, h⟩
      · exact .inl rfl
      · exact .inr ⟨c, cs, rfl, .inr h⟩
    rw [csvScan_field v t h before rest ho]
    rcases hrest with rfl | ⟨c, cs, rfl, h⟩
    · simp [afterField, csvScan]
    · have h1 : c ≠ ',' := by rcases h with rfl | rfl <;> decide
      simp only [afterField, if_neg h1, csvScan]
      rw [if_pos (by rw [isLineEnd_iff]; exact h)]
      simp
  | more v t r u h _ ih =>
    rw [List.append_assoc, List.cons_append, csvScan_field v t h before _ (.inr ⟨',', _, rfl, .inl rfl⟩)]
    simp only [afterField, if_true]
    rw [ih]
    simp

theorem WritesFields.head (r : List Str) (t : Str) (h : WritesFields r t) (c : Char) (hc : t.head? = some c) :
    c ≠ '\n' ∧ c ≠ '\r' := by
  have key : ∀ v t, WritesField v t → ∀ c, t.head? = some c → c ≠ '\n' ∧ c ≠ '\r' := by
    intro v t h c hc
    cases h with
    | plain h _ =>
      cases v with
      | nil => cases hc
      | cons a v =>
        cases hc
        exact (h _ (by simp)).2
    | quoted => cases hc; decide
  cases h with
  | one v _ h => exact key v t h c hc
  | more v t r u h _ =>
    cases t with
    | nil => cases hc; decide
    | cons a t => exact key v _ h c (by simpa using hc)

theorem csvScan_rows (rs : List (List Str)) (t : Str) (h : WritesRows rs t) : csvScan .line [] [] t = rs := by
  induction h with
  | nil => rfl
  | last r t h hne =>
    rw [csvScan_line t hne (h.head r t)]
    have := csvScan_fields r t h [] [] (.inl rfl)
    simpa [csvScan] using this
  | row r t e rs u h hne he hne' _ ih =>
    cases e with
    | nil => exact absurd rfl hne'
    | cons c e =>
      rw [List.append_assoc, csvScan_line (t ++ (c :: e ++ u)) (by simp [hne]) (by
        intro c' hc'
        refine h.head r t c' ?_
        cases t with
        | nil => exact absurd rfl hne
        | cons a t => simpa using hc')]
      rw [csvScan_fields r t h [] (c :: e ++ u) (.inr ⟨c, _, rfl, he c (by simp)⟩), csvScan_ends _ he, ih]
      simp

theorem csvRecords_table (rs : List (List Str)) (t : Str) (h : WritesTable rs t) : csvRecords t = rs.map some := by
  obtain ⟨⟨mark, e, u, hm, he, hu, rfl, hb⟩, n, hn⟩ := h
  have h1 : csvScan .line [] [] (csvText (mark ++ e ++ u)) = rs := by
    have : csvText (mark ++ e ++ u) = e ++ u := by
      rcases hm with rfl | rfl
      · cases h : ([] ++ e ++ u : Str) with
        | nil => simpa [csvText] using h.symm
        | cons c cs =>
          have := hb rfl
          rw [h] at this
          simp only [csvText]
          rw [if_neg (by simpa using this), ← h]
          rfl
      · simp [csvText]
    rw [this, csvScan_ends e he, csvScan_rows rs u hu]
  unfold csvRecords
  rw [h1]
  cases rs with
  | nil => rfl
  | cons r rs =>
    simp only [List.map_cons, List.cons.injEq, true_and]
    refine List.map_congr_left fun x hx => ?_
    rw [if_pos ((hn x (by simp [hx])).trans (hn r (by simp)).symm)]

/-! ### C106 -/

/-- **C106.** A table may be written with or without quotes, with any line ends, with empty lines and with a byte
order mark: the records read are those that were written. -/
theorem C106_what_is_written_is_read (env : Env) (hcsv : env.csv = csvRecords) (rs : List (List Str)) (t : Str)
    (h : WritesTable rs t) : env.csv t = rs.map some := by
  rw [hcsv]; exact csvRecords_table rs t h

/-- **C106.** So an import does not depend on how its table is written. -/
theorem C106_import_of_any_writing (env : Env) (hcsv : env.csv = csvRecords) (rs : List (List Str)) (t t' rules : Str)
    (h : WritesTable rs t) (h' : WritesTable rs t') (w : World) (fuel : Nat) :
    importerFromStrs env w fuel t rules = importerFromStrs env w fuel t' rules := by
  unfold importerFromStrs
  rw [C106_what_is_written_is_read env hcsv rs t h, C106_what_is_written_is_read env hcsv rs t' h']

/-- **C106.** Every table without empty records can be written: no value is lost for its characters. -/
theorem C106_every_table_can_be_written (rs : List (List Str)) (n : Nat) (hn : ∀ r ∈ rs, r.length = n) (hpos : 0 < n) :
    ∃ t, WritesTable rs t := by
  have field : ∀ r : List Str, r ≠ [] → ∃ t, WritesFields r t ∧ t.head? = some '"' := by
    intro r hr
    induction r with
    | nil => exact absurd rfl hr
    | cons v r ih =>
      cases r with
      | nil => exact ⟨_, .one v _ (.quoted v), rfl⟩
      | cons v' r =>
        obtain ⟨t, h, _⟩ := ih (by simp)
        exact ⟨_, .more v _ _ t (.quoted v) h, rfl⟩
  have rows : ∃ t, WritesRows rs t ∧ t.head? ≠ some '\uFEFF' := by
    induction rs with
    | nil => exact ⟨[], .nil, by simp⟩
    | cons r rs ih =>
      obtain ⟨u, hu, _⟩ := ih fun r hr => hn r (by simp [hr])
      obtain ⟨t, ht, hq⟩ := field r (by
        rintro rfl
        have := hn [] (by simp)
        simp at this
        omega)
      have hne : t ≠ [] := by rintro rfl; cases hq
      refine ⟨t ++ ['\n'] ++ u, .row r t ['\n'] rs u ht hne (by simp [LineEnds]) (by simp) hu, ?_⟩
      cases t with
      | nil => cases hq
      | cons c t => cases hq; simp
  obtain ⟨t, ht, hb⟩ := rows
  exact ⟨t, ⟨[], [], t, .inl rfl, by simp [LineEnds], ht, rfl, fun _ => by simpa using hb⟩, n, hn⟩

theorem plain_fields (t : Str) (h : ∀ c ∈ t, c ≠ '"' ∧ c ≠ '\n' ∧ c ≠ '\r') :
    ∃ v r, WritesFields (v :: r) t ∧ v = t.takeWhile (· ≠ ',') ∧ (∀ x ∈ v :: r, ',' ∉ x) := by
  induction t with
  | nil => exact ⟨[], [], .one _ _ (.plain [] (by simp) (by simp)), rfl, by simp⟩
  | cons c t ih =>
    obtain ⟨v, r, h1, h2, h3⟩ := ih fun c hc => h c (by simp [hc])
    obtain ⟨k1, k2, k3⟩ := h c (by simp)
    by_cases hc : c = ','
    · subst hc
      exact ⟨[], v :: r, .more [] [] _ t (.plain [] (by simp) (by simp)) h1, by simp, by
        intro x hx
        rcases List.mem_cons.1 hx with rfl | hx
        · simp
        · exact h3 x hx⟩
    · have hv : ∀ c' ∈ v, c' ≠ ',' ∧ c' ≠ '\n' ∧ c' ≠ '\r' := by
        intro c' hc'
        refine ⟨fun hcc => h3 v (by simp) (hcc ▸ hc'), ?_⟩
        rw [h2] at hc'
        exact (h c' (by simp [(List.takeWhile_prefix _).subset hc'])).2
      have hf : WritesField (c :: v) (c :: v) := .plain _ (by
        intro c' hc'
        rcases List.mem_cons.1 hc' with rfl | hc'
        · exact ⟨hc, k2, k3⟩
        · exact hv c' hc') (by simpa using k1)
      have h3' : ∀ x ∈ (c :: v) :: r, ',' ∉ x := by
        intro x hx
        rcases List.mem_cons.1 hx with rfl | hx
        · simp only [List.mem_cons, not_or]
          exact ⟨fun h => hc h.symm, h3 v (by simp)⟩
        · exact h3 x (by simp [hx])
      have hnq : ∀ y : Str, (∀ c ∈ y, c ≠ '"') → ∀ v', WritesField v' y → v' = y := by
        intro y hy v' hw
        cases hw with
        | plain => rfl
        | quoted => exact absurd rfl (hy '"' (by simp))
      refine ⟨c :: v, r, ?_, by simp [hc, h2], h3'⟩
      cases h1 with
      | one _ _ hw =>
        have := hnq t (fun c hc => (h c (by simp [hc])).1) v hw
        rw [← this]
        exact .one _ _ hf
      | more _ a _ u hw hr =>
        have : v = a := hnq a (fun c hc => (h c (by simp [hc])).1) v hw
        rw [← this, ← List.cons_append]
        exact .more _ _ _ _ hf hr

/-- **C106.** Every text without quotes is a table: after the empty lines at its beginning come rows, whose values are
the pieces between the commas. -/
theorem C106_every_plain_text (t : Str) (h : '"' ∉ t) :
    ∃ rs, WritesRows rs (t.dropWhile isLineEnd) ∧ ∀ r ∈ rs, ∀ v ∈ r, ',' ∉ v ∧ '\n' ∉ v ∧ '\r' ∉ v := by
  induction hn : t.length using Nat.strongRecOn generalizing t with
  | _ n ih =>
    generalize hu : t.dropWhile isLineEnd = u
    have hut : ∀ c ∈ u, c ∈ t := fun c hc => (hu ▸ List.dropWhile_sublist _ : u.Sublist t).subset hc
    have hlen : u.length ≤ t.length := (hu ▸ List.dropWhile_sublist _ : u.Sublist t).length_le
    cases u with
    | nil => exact ⟨[], .nil, by simp⟩
    | cons c u =>
      have hc : isLineEnd c = false := by
        have := List.head_dropWhile_not isLineEnd (l := t) (by rw [hu]; simp)
        simpa [hu] using this
      generalize ha : (c :: u).takeWhile (fun c => !isLineEnd c) = a
      generalize hb : (c :: u).dropWhile (fun c => !isLineEnd c) = b
      have hab : c :: u = a ++ b := by rw [← ha, ← hb, List.takeWhile_append_dropWhile]
      have hane : a ≠ [] := by rw [← ha]; simp [hc]
      have hacs : ∀ x ∈ a, x ≠ '"' ∧ x ≠ '\n' ∧ x ≠ '\r' := by
        intro x hx
        have h1 : isLineEnd x = false := by
          rw [← ha] at hx
          simpa using List.all_eq_true.1 (List.all_takeWhile (p := fun c => !isLineEnd c)) x hx
        refine ⟨?_, ?_, ?_⟩
        · rintro rfl; exact h (hut _ (by rw [hab]; simp [hx]))
        · rintro rfl; cases h1
        · rintro rfl; cases h1
      obtain ⟨v, r, h1, _, h3⟩ := plain_fields a hacs
      have hvals : ∀ x ∈ v :: r, ',' ∉ x ∧ '\n' ∉ x ∧ '\r' ∉ x := by
        have key : ∀ (vs : List Str) (a : Str), WritesFields vs a → (∀ x ∈ a, x ≠ '"' ∧ x ≠ '\n' ∧ x ≠ '\r') →
            ∀ x ∈ vs, '\n' ∉ x ∧ '\r' ∉ x := by
          have one : ∀ v a : Str, WritesField v a → (∀ x ∈ a, x ≠ '"' ∧ x ≠ '\n' ∧ x ≠ '\r') → '\n' ∉ v ∧ '\r' ∉ v := by
            intro v a hw ha
            cases hw with
            | plain => exact ⟨fun h => (ha _ h).2.1 rfl, fun h => (ha _ h).2.2 rfl⟩
            | quoted => exact absurd rfl (ha '"' (by simp)).1
          intro vs a hw
          induction hw with
          | one v t hw =>
            intro ha x hx
            rw [List.mem_singleton] at hx
            subst hx
            exact one _ _ hw ha
          | more v t r u hw _ ih =>
            intro ha x hx
            rcases List.mem_cons.1 hx with rfl | hx
            · exact one _ _ hw fun x hx => ha x (by simp [hx])
            · exact ih (fun x hx => ha x (by simp [hx])) x hx
        exact fun x hx => ⟨h3 x hx, key _ _ h1 hacs x hx⟩
      cases b with
      | nil =>
        rw [hab, List.append_nil]
        exact ⟨[v :: r], .last _ _ h1 hane, by simpa using hvals⟩
      | cons d b =>
        have hd : isLineEnd d = true := by
          have := List.head_dropWhile_not (fun c => !isLineEnd c) (l := c :: u) (by rw [hb]; simp)
          simpa [hb] using this
        have hblen : (d :: b).length < n := by
          have h4 := congrArg List.length hab
          have h5 : 0 < a.length := List.length_pos_iff.2 hane
          rw [List.length_append] at h4
          omega
        obtain ⟨rs, k1, k2⟩ := ih _ hblen (d :: b) (fun hx => h (hut _ (by rw [hab]; exact List.mem_append_right _ hx))) rfl
        have hsplit : d :: b = (d :: b).takeWhile isLineEnd ++ (d :: b).dropWhile isLineEnd :=
          (List.takeWhile_append_dropWhile).symm
        refine ⟨(v :: r) :: rs, ?_, ?_⟩
        · rw [hab, hsplit, ← List.append_assoc]
          refine .row _ _ _ _ _ h1 hane ?_ (by simp [hd]) k1
          intro x hx
          rw [← isLineEnd_iff]
          exact List.all_eq_true.1 List.all_takeWhile x hx
        · intro r' hr'
          rcases List.mem_cons.1 hr' with rfl | hr'
          · exact hvals
          · exact k2 r' hr'

/-- **C106, at its border.** A quote that is not closed is not reported: everything after it, all the lines to the end
of the table, becomes one value. -/
theorem C106_open_quote (env : Env) (hcsv : env.csv = csvRecords) (r : List Str) (t s : Str) (h : WritesFields r t)
    (hb : t.head? ≠ some '\uFEFF') (hs : '"' ∉ s) : env.csv (t ++ ',' :: '"' :: s) = [some (r ++ [s])] := by
  have swallow : ∀ (s : Str), '"' ∉ s → ∀ (f : Str) (b : List Str),
      csvScan .quoted f b s = [b.reverse ++ [f.reverse ++ s]] := by
    intro s
    induction s with
    | nil => intro _ f b; simp [csvScan]
    | cons c s ih =>
      intro hs f b
      simp only [csvScan]
      rw [if_neg (by rintro rfl; exact hs (by simp)), ih (fun h => hs (by simp [h]))]
      simp
  have key : ∀ (r : List Str) (t : Str), WritesFields r t → ∀ b : List Str,
      csvScan .field [] b (t ++ ',' :: '"' :: s) = [b.reverse ++ r ++ [s]] := by
    intro r t h
    induction h with
    | one v t h =>
      intro b
      rw [csvScan_field v t h b _ (.inr ⟨',', _, rfl, .inl rfl⟩)]
      simp only [afterField, if_true, csvScan]
      rw [swallow s hs]
      simp
    | more v t r u h _ ih =>
      intro b
      rw [List.append_assoc, List.cons_append, csvScan_field v t h b _ (.inr ⟨',', _, rfl, .inl rfl⟩)]
      simp only [afterField, if_true]
      rw [ih]
      simp
  have hhead : ∀ c, (t ++ ',' :: '"' :: s).head? = some c → c ≠ '\n' ∧ c ≠ '\r' := by
    intro c hc
    cases t with
    | nil => cases hc; decide
    | cons a t => exact h.head r _ c (by simpa using hc)
  have htext : csvText (t ++ ',' :: '"' :: s) = t ++ ',' :: '"' :: s := by
    cases t with
    | nil => rfl
    | cons a t =>
      simp only [List.cons_append, csvText]
      rw [if_neg (by simpa using hb)]
  rw [hcsv]
  unfold csvRecords
  rw [htext, csvScan_line _ (by simp) hhead, key r t h]
  simp

/-! ### Examples -/

/-- Two writings of one table, the second with quotes, carriage returns, an empty line and a byte order mark. -/
def exTable : List (List Str) := [[s%"Date", s%"What", s%"Amount"], [s%"2024/06/01", s%"Tea, green", s%"3"]]
def exTable1 : Str := s%"Date,What,Amount\n2024/06/01,\"Tea, green\",3"
def exTable2 : Str := '\uFEFF' :: s%"\"Date\",What,Amount\r\n\r\n2024/06/01,\"Tea, green\",\"3\"\r\n"

example : WritesTable exTable exTable1 := by
  refine ⟨⟨[], [], exTable1, .inl rfl, by simp [LineEnds], ?_, rfl, fun _ => by decide⟩, 3, by decide⟩
  refine .row _ s%"Date,What,Amount" s%"\n" _ s%"2024/06/01,\"Tea, green\",3" ?_ (by decide) (by unfold LineEnds; decide) (by decide)
    (.last _ _ ?_ (by decide))
  · exact .more _ s%"Date" _ _ (.plain _ (by decide) (by decide)) (.more _ s%"What" _ _ (.plain _ (by decide) (by decide))
      (.one _ _ (.plain _ (by decide) (by decide))))
  · exact .more _ s%"2024/06/01" _ _ (.plain _ (by decide) (by decide)) (.more _ s%"\"Tea, green\"" _ _ (.quoted s%"Tea, green")
      (.one _ _ (.plain _ (by decide) (by decide))))

example : WritesTable exTable exTable2 := by
  refine ⟨⟨['\uFEFF'], [], s%"\"Date\",What,Amount\r\n\r\n2024/06/01,\"Tea, green\",\"3\"\r\n", .inr rfl, by simp [LineEnds], ?_, rfl,
    fun h => by cases h⟩, 3, by decide⟩
  refine .row _ s%"\"Date\",What,Amount" s%"\r\n\r\n" _ s%"2024/06/01,\"Tea, green\",\"3\"\r\n" ?_ (by decide) (by unfold LineEnds; decide)
    (by decide) (.row _ s%"2024/06/01,\"Tea, green\",\"3\"" s%"\r\n" _ [] ?_ (by decide) (by unfold LineEnds; decide) (by decide) .nil)
  · exact .more _ s%"\"Date\"" _ _ (.quoted s%"Date") (.more _ s%"What" _ _ (.plain _ (by decide) (by decide))
      (.one _ _ (.plain _ (by decide) (by decide))))
  · exact .more _ s%"2024/06/01" _ _ (.plain _ (by decide) (by decide)) (.more _ s%"\"Tea, green\"" _ _ (.quoted s%"Tea, green")
      (.one _ s%"\"3\"" (.quoted s%"3")))

/-- The journal after importing the table, with a comma in the description. -/
example : importAndLoad (importDisk "account a\naccount b\n" "Date,What,Amount\n2024/06/01,\"Tea, green\",3\n"
      "fields date, description, amount\naccount1 a\namount1 %amount%\naccount2 b\namount2 -%amount%\n") =
    .ok (some s%"account a\naccount b\n\n2024/06/01 ~ Tea, green\n    b                                                  -3\n    a                                                   3\n",
      true, true) := by
  decide +kernel

/-- **C106, at its border.** The quote in the first of two records is not closed: one entry is made of both, its
description goes over two lines, and the journal does not load any more. -/
theorem C106_open_quote_imported :
    importAndLoad (importDisk "account a\naccount b\n" "Date,Amount,What\n2024/06/01,3,\"Tea\n2024/06/02,2,Milk\n"
      "fields date, amount, description\naccount1 a\namount1 %amount%\naccount2 b\namount2 -%amount%\n") =
    .ok (some s%"account a\naccount b\n\n2024/06/01 ~ Tea\n2024/06/02,2,Milk\n\n    b                                                  -3\n    a                                                   3\n",
      true, false) := by
  decide +kernel

end Silverfox
