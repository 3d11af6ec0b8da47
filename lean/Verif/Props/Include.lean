import Verif.Props.Comments
import Verif.Props.Files

/-
Included files: C54; and more of C60.
-/

namespace Silverfox

set_option linter.unusedSectionVars false
variable {M : Type} [Mag M]

/-! ### More fuel does no harm -/

theorem parseChunk_mono (env : Env) (inc inc' : Ledger M × World → Str → Res (Ledger M × World))
    (h : ∀ st p r, inc st p = .ok r → inc' st p = .ok r) (st r : Ledger M × World) (c : Str)
    (hr : Ledger.parseChunk env inc st c = .ok r) : Ledger.parseChunk env inc' st c = .ok r := by
  unfold Ledger.parseChunk at hr ⊢
  split
  · rename_i hc; rw [if_pos hc] at hr; exact hr
  · rename_i hc
    rw [if_neg hc] at hr
    cases hs : splitWs c with
    | nil => rw [hs] at hr; exact hr
    | cons kw rest =>
      rw [hs] at hr
      simp only at hr ⊢
      split
      · rename_i hk; rw [if_pos hk] at hr; exact hr
      · rename_i hk
        rw [if_neg hk] at hr
        split
        · rename_i hk; rw [if_pos hk] at hr; exact hr
        · rename_i hk
          rw [if_neg hk] at hr
          split
          · rename_i hk; rw [if_pos hk] at hr; exact hr
          · rename_i hk
            rw [if_neg hk] at hr
            split
            · rename_i hk
              rw [if_pos hk] at hr
              cases rest with
              | nil => exact hr
              | cons v r' => exact h _ _ _ hr
            · rename_i hk; rw [if_neg hk] at hr; exact hr

theorem addLinesFrom_mono (env : Env) (inc inc' : Ledger M × World → Str → Res (Ledger M × World))
    (h : ∀ st p r, inc st p = .ok r → inc' st p = .ok r) (ls : List Str) (st r : Ledger M × World) (c : Str)
    (hr : Ledger.addLinesFrom env inc ls st c = .ok r) : Ledger.addLinesFrom env inc' ls st c = .ok r := by
  induction ls generalizing st c with
  | nil => exact parseChunk_mono env inc inc' h st r c hr
  | cons l ls ih =>
    simp only [Ledger.addLinesFrom] at hr ⊢
    cases he : removeComments (trimEnd l) with
    | nil => rw [he] at hr; exact ih _ _ hr
    | cons d e =>
      rw [he] at hr
      simp only at hr ⊢
      split
      · rename_i hw; rw [if_pos hw] at hr; exact ih _ _ hr
      · rename_i hw
        rw [if_neg hw] at hr
        simp only [bind, Except.bind] at hr ⊢
        cases hp : Ledger.parseChunk env inc st c with
        | error f => rw [hp] at hr; cases hr
        | ok st1 =>
          rw [hp] at hr
          rw [parseChunk_mono env inc inc' h st st1 c hp]
          exact ih _ _ hr

theorem addFromFile_mono (env : Env) (f k : Nat) (st r : Ledger M × World) (p : Str)
    (hr : Ledger.addFromFile env f st p = .ok r) : Ledger.addFromFile env (f + k) st p = .ok r := by
  induction f generalizing st r p with
  | zero => cases hr
  | succ f ih =>
    have : f + 1 + k = f + k + 1 := by omega
    rw [this]
    simp only [Ledger.addFromFile] at hr ⊢
    cases hs : st.2.read p with
    | none => rw [hs] at hr; cases hr
    | some s =>
      rw [hs] at hr
      exact addLinesFrom_mono env _ _ (fun st p r h => ih st r p h) _ _ _ _ hr

/-! ### Where one item ends and the next begins -/

/-- The first line that says something is not indented. -/
def StartsItem : List Str → Prop
  | [] => True
  | l :: ls => match removeComments (trimEnd l) with
    | [] => StartsItem ls
    | c :: _ => isWs c = false

instance decStartsItem : (ls : List Str) → Decidable (StartsItem ls)
  | [] => .isTrue trivial
  | l :: ls => by
    unfold StartsItem
    have := decStartsItem ls
    split <;> infer_instance

theorem parseChunk_nil (env : Env) (inc : Ledger M × World → Str → Res (Ledger M × World))
    (st : Ledger M × World) : Ledger.parseChunk env inc st [] = .ok st := rfl

theorem addLinesFrom_start (env : Env) (inc : Ledger M × World → Str → Res (Ledger M × World))
    (ls : List Str) (h : StartsItem ls) (st : Ledger M × World) (c : Str) :
    Ledger.addLinesFrom env inc ls st c =
      (Ledger.parseChunk env inc st c >>= fun st => Ledger.addLinesFrom env inc ls st []) := by
  induction ls with
  | nil =>
    simp only [Ledger.addLinesFrom, parseChunk_nil]
    cases Ledger.parseChunk env inc st c <;> rfl
  | cons l ls ih =>
    unfold StartsItem at h
    simp only [Ledger.addLinesFrom]
    cases he : removeComments (trimEnd l) with
    | nil => rw [he] at h; exact ih h
    | cons d e =>
      rw [he] at h
      have hd : isWs d = false := h
      simp only [hd, Bool.false_eq_true, if_false, parseChunk_nil]
      rfl

theorem addLinesFrom_append (env : Env) (inc : Ledger M × World → Str → Res (Ledger M × World))
    (ls post : List Str) (h : StartsItem post) (st : Ledger M × World) (c : Str) :
    Ledger.addLinesFrom env inc (ls ++ post) st c =
      (Ledger.addLinesFrom env inc ls st c >>= fun st => Ledger.addLinesFrom env inc post st []) := by
  induction ls generalizing st c with
  | nil => exact addLinesFrom_start env inc post h st c
  | cons l ls ih =>
    simp only [List.cons_append, Ledger.addLinesFrom]
    split
    · exact ih st c
    · split
      · exact ih _ _
      · cases Ledger.parseChunk env inc st c with
        | error f => rfl
        | ok st1 => exact ih _ _

theorem StartsItem.append {a b : List Str} (ha : StartsItem a) (hb : StartsItem b) : StartsItem (a ++ b) := by
  induction a with
  | nil => exact hb
  | cons l a ih =>
    rw [List.cons_append]
    unfold StartsItem at ha ⊢
    split
    · rename_i he; rw [he] at ha; exact ih ha
    · rename_i he; rw [he] at ha; exact ha

/-- The line `i` is an unindented `include g`. -/
def IsInclude (i g : Str) : Prop :=
  startsInk i = true ∧ ∃ more, splitWs (removeComments i) = s%"include" :: g :: more

theorem effective_tokens (l : Str) : splitWs (removeComments (trimEnd l)) = splitWs (removeComments l) := by
  obtain ⟨b, hb, h, _⟩ := trimEnd_spec l
  rw [removeComments_eq_rc, removeComments_eq_rc]
  conv => rhs; rw [h]
  rw [splitWs_rc_ws _ hb]

theorem IsInclude.effective {i g : Str} (h : IsInclude i g) :
    ∃ c r more, removeComments (trimEnd i) = c :: r ∧ isWs c = false ∧
      splitWs (c :: r) = s%"include" :: g :: more := by
  obtain ⟨h1, more, h2⟩ := h
  rw [← effective_tokens] at h2
  cases he : removeComments (trimEnd i) with
  | nil => rw [he] at h2; cases h2
  | cons c r =>
    refine ⟨c, r, more, rfl, ?_, by rw [← he]; exact h2⟩
    rw [removeComments_eq_rc] at he
    obtain ⟨rest, e1, _⟩ := rc_append_rest (trimEnd i)
    obtain ⟨b, _, e2, _⟩ := trimEnd_spec i
    rw [he] at e1
    rw [e1] at e2
    rw [e2] at h1
    simpa [startsInk] using h1

theorem IsInclude.starts {i g : Str} (h : IsInclude i g) (post : List Str) : StartsItem (i :: post) := by
  obtain ⟨c, r, more, h1, h2, _⟩ := h.effective
  unfold StartsItem
  rw [h1]
  exact h2

theorem addLinesFrom_include (env : Env) (inc : Ledger M × World → Str → Res (Ledger M × World))
    (i g : Str) (h : IsInclude i g) (st : Ledger M × World) :
    Ledger.addLinesFrom env inc [i] st [] = inc st g := by
  obtain ⟨c, r, more, h1, h2, h3⟩ := h.effective
  simp only [Ledger.addLinesFrom, h1, h2, Bool.false_eq_true, if_false, parseChunk_nil, bind, Except.bind]
  unfold Ledger.parseChunk
  rw [h3]
  rfl

/-- Loading the lines around an `include` line: first what is before, then the file, then the rest. -/
theorem addLinesFrom_around (env : Env) (inc : Ledger M × World → Str → Res (Ledger M × World))
    (pre post : List Str) (i g : Str) (h : IsInclude i g) (hpost : StartsItem post)
    (st : Ledger M × World) (c : Str) :
    Ledger.addLinesFrom env inc (pre ++ i :: post) st c =
      (Ledger.addLinesFrom env inc pre st c >>= fun st => inc st g >>= fun st =>
        Ledger.addLinesFrom env inc post st []) := by
  rw [addLinesFrom_append env inc pre _ (h.starts post)]
  congr 1
  funext st
  have := addLinesFrom_append env inc [i] post hpost st []
  rw [List.singleton_append] at this
  rw [this, addLinesFrom_include env inc i g h]

/-! ### Journals in one directory -/

/-- A file name without directory. -/
def bare (n : Str) : Prop := '/' ∉ n ∧ n ≠ [] ∧ n ≠ s%"." ∧ n ≠ s%".."

instance (n : Str) : Decidable (bare n) := by unfold bare; infer_instance

theorem bare.resolve {n : Str} (h : bare n) (cwd : APath) : resolve cwd n = cwd ++ [n] := by
  obtain ⟨h1, h2, h3, h4⟩ := h
  unfold Silverfox.resolve
  have : n.head? ≠ some '/' := by
    intro e
    cases n with
    | nil => cases e
    | cons c n => simp only [List.head?_cons, Option.some.injEq] at e; subst e; exact h1 (by simp)
  rw [if_neg this, splitOn_none h1]
  simp [stepPath, h2, h3, h4]

theorem bare.endsInName {n : Str} (h : bare n) : endsInName n = true := by
  obtain ⟨h1, h2, h3, h4⟩ := h
  unfold Silverfox.endsInName
  rw [splitOn_none h1]
  simp [h2, h3, h4]

theorem bare.cdParent {n : Str} (h : bare n) (w : World) : w.cdParent n = w := by
  unfold World.cdParent
  rw [h.resolve]
  simp

theorem bare.read {n : Str} (h : bare n) (w : World) : w.read n = w.file (w.cwd ++ [n]) := by
  unfold World.read
  rw [h.endsInName, h.resolve, if_pos rfl]

/-- Every `include` names a file with the property `P`. -/
def IncludeLines (P : Str → Prop) (ls : List Str) : Prop :=
  ∀ l ∈ ls, ∀ r, splitWs (removeComments l) = s%"include" :: r → ∃ v r', r = v :: r' ∧ P v

/-- Every `include` names a file without directory. -/
abbrev FlatLines (ls : List Str) : Prop := IncludeLines bare ls

/-- All files in the working directory are like this. -/
def Flat (w : World) : Prop := ∀ n t, w.file (w.cwd ++ [n]) = some t → FlatLines (lines t)

/-- The current item does not include a file without `P`. -/
def FlatChunk (P : Str → Prop) (c : Str) : Prop :=
  ∀ r, splitWs c = s%"include" :: r → ∃ v r', r = v :: r' ∧ P v

theorem FlatChunk.snoc {P : Str → Prop} {c e : Str} (h : FlatChunk P c) (h' : FlatChunk P e) :
    FlatChunk P (c ++ '\n' :: e) := by
  intro r hr
  rw [splitWs_append_ws _ isWs_nl] at hr
  cases hc : splitWs c with
  | nil => rw [hc] at hr; exact h' r hr
  | cons t ts =>
    rw [hc] at hr
    simp only [List.cons_append, List.cons.injEq] at hr
    obtain ⟨rfl, rfl⟩ := hr
    obtain ⟨v, r', rfl, hv⟩ := h ts hc
    exact ⟨v, r' ++ splitWs e, rfl, hv⟩

/-- What `inc` loads in `w`, `inc'` loads in `w'`, and the world stays as it is. -/
def SimOn (P : Str → Prop) (w w' : World) (inc inc' : Ledger M × World → Str → Res (Ledger M × World)) : Prop :=
  ∀ l n l1 w1, P n → inc (l, w) n = .ok (l1, w1) → w1 = w ∧ inc' (l, w') n = .ok (l1, w')

abbrev Sim (w w' : World) (inc inc' : Ledger M × World → Str → Res (Ledger M × World)) : Prop :=
  SimOn bare w w' inc inc'

theorem parseChunk_sim {P : Str → Prop} (env : Env) (w w' : World)
    (inc inc' : Ledger M × World → Str → Res (Ledger M × World))
    (h : SimOn P w w' inc inc') (l l1 : Ledger M) (w1 : World) (c : Str) (hc : FlatChunk P c)
    (hr : Ledger.parseChunk env inc (l, w) c = .ok (l1, w1)) :
    w1 = w ∧ Ledger.parseChunk env inc' (l, w') c = .ok (l1, w') := by
  unfold Ledger.parseChunk at hr ⊢
  split
  · rename_i hc; rw [if_pos hc] at hr; cases hr; exact ⟨rfl, rfl⟩
  · rename_i hne
    rw [if_neg hne] at hr
    cases hs : splitWs c with
    | nil => rw [hs] at hr; cases hr; exact ⟨rfl, rfl⟩
    | cons kw rest =>
      rw [hs] at hr
      simp only at hr ⊢
      split
      · rename_i hk
        rw [if_pos hk] at hr
        simp only [bind, Except.bind, pure, Except.pure] at hr ⊢
        cases ha : l.parseAccount env c with
        | error f => rw [ha] at hr; cases hr
        | ok a => rw [ha] at hr; cases hr; exact ⟨rfl, rfl⟩
      · rename_i hk
        rw [if_neg hk] at hr
        split
        · rename_i hk
          rw [if_pos hk] at hr
          cases rest with
          | nil => cases hr
          | cons v r => cases hr; exact ⟨rfl, rfl⟩
        · rename_i hk
          rw [if_neg hk] at hr
          split
          · rename_i hk
            rw [if_pos hk] at hr
            cases rest with
            | nil => cases hr
            | cons v r => cases hr; exact ⟨rfl, rfl⟩
          · rename_i hk
            rw [if_neg hk] at hr
            split
            · rename_i hk
              rw [if_pos hk] at hr
              subst hk
              cases rest with
              | nil => cases hr
              | cons v r =>
                obtain ⟨v', r', e, hv⟩ := hc _ hs
                cases e
                exact h _ _ _ _ hv hr
            · rename_i hk
              rw [if_neg hk] at hr
              simp only [bind, Except.bind, pure, Except.pure] at hr ⊢
              cases ha : l.parseEntry env c with
              | error f => rw [ha] at hr; cases hr
              | ok a => rw [ha] at hr; cases hr; exact ⟨rfl, rfl⟩

theorem IncludeLines.effective {P : Str → Prop} {ls : List Str} (h : IncludeLines P ls) {l : Str} (hl : l ∈ ls) :
    FlatChunk P (removeComments (trimEnd l)) := by
  intro r hr
  rw [effective_tokens] at hr
  exact h l hl r hr

theorem addLinesFrom_sim {P : Str → Prop} (env : Env) (w w' : World)
    (inc inc' : Ledger M × World → Str → Res (Ledger M × World))
    (h : SimOn P w w' inc inc') (ls : List Str) (hls : IncludeLines P ls) (l l1 : Ledger M) (w1 : World) (c : Str)
    (hc : FlatChunk P c) (hr : Ledger.addLinesFrom env inc ls (l, w) c = .ok (l1, w1)) :
    w1 = w ∧ Ledger.addLinesFrom env inc' ls (l, w') c = .ok (l1, w') := by
  induction ls generalizing l c with
  | nil => exact parseChunk_sim env w w' inc inc' h l l1 w1 c hc hr
  | cons x ls ih =>
    have hls' : IncludeLines P ls := fun y hy => hls y (List.mem_cons_of_mem _ hy)
    have hx := hls.effective (List.mem_cons_self (a := x) (l := ls))
    simp only [Ledger.addLinesFrom] at hr ⊢
    cases he : removeComments (trimEnd x) with
    | nil => rw [he] at hr; exact ih hls' l c hc hr
    | cons d e =>
      rw [he] at hr hx
      simp only at hr ⊢
      split
      · rename_i hw; rw [if_pos hw] at hr; exact ih hls' l _ (hc.snoc hx) hr
      · rename_i hw
        rw [if_neg hw] at hr
        simp only [bind, Except.bind] at hr ⊢
        cases hp : Ledger.parseChunk env inc (l, w) c with
        | error f => rw [hp] at hr; cases hr
        | ok st1 =>
          obtain ⟨l2, w2⟩ := st1
          rw [hp] at hr
          obtain ⟨rfl, hp'⟩ := parseChunk_sim env w w' inc inc' h l l2 w2 c hc hp
          rw [hp']
          exact ih hls' l2 _ hx hr

theorem FlatChunk.nil {P : Str → Prop} : FlatChunk P [] := by intro r hr; cases hr

/-- A journal all of whose includes are in its directory leaves the working directory alone. -/
theorem flat_world (env : Env) (w : World) (hw : Flat w) (fuel : Nat) :
    Sim w w (Ledger.addFromFile (M := M) env fuel) (Ledger.addFromFile env fuel) := by
  induction fuel with
  | zero => intro l n l1 w1 _ h; cases h
  | succ f ih =>
    intro l n l1 w1 hn h
    have h0 := h
    simp only [Ledger.addFromFile, hn.read] at h
    cases hs : w.file (w.cwd ++ [n]) with
    | none => rw [hs] at h; cases h
    | some s =>
      rw [hs] at h
      simp only [hn.cdParent] at h
      obtain ⟨rfl, _⟩ := addLinesFrom_sim env w w _ _ ih _ (hw n s hs) l l1 w1 [] .nil h
      exact ⟨rfl, h0⟩

/-- C60 for a journal in the working directory whose includes, if any, are there too: the file that
was loaded is extended, and no other. -/
theorem C60_one_directory_partial (M : Type) [Mag M] (env : Env) (o : Outside) (f : Flags) (w : World)
    (hw : Flat w) (path : Str) (hbare : bare path) (hp : f.file.or o.file = some path) :
    Extended (w.cwd ++ [path]) w (execute M env o f w).1 := by
  rw [← hbare.resolve]
  cases hl : (Ledger.fromFile env o.fuel w path : Res (Ledger M × World)) with
  | error x => exact .of_eq _ (C59_loading_error M env o f w path x hp hl).1
  | ok r =>
    obtain ⟨l, w1⟩ := r
    have := flat_world (M := M) env w hw o.fuel (Ledger.new path) path l w1 hbare hl
    exact C60_same_directory_partial M env o f w path hp (l, w1) hl (by rw [this.1])

/-! ### C54 -/

/-- Some ledger is loaded, with enough room for nested includes. -/
def Loads (env : Env) (w : World) (path : Str) (l : Ledger M) : Prop :=
  ∃ fuel w', Ledger.fromFile env fuel w path = .ok (l, w')

section Paste

variable (env : Env) (w : World) (hw : Flat w) (f g s s' t i : Str) (pre post : List Str)
  (hf : bare f) (hg : bare g) (hfg : g ≠ f)
  (hs : w.file (w.cwd ++ [f]) = some s) (ht : w.file (w.cwd ++ [g]) = some t)
  (hlines : lines s = pre ++ i :: post) (hi : IsInclude i g)
  (hlines' : lines s' = pre ++ lines t ++ post) (hstart : StartsItem (lines t)) (hpost : StartsItem post)

include hlines in
theorem paste_flat_parts (hfl : FlatLines (lines s)) : FlatLines pre ∧ FlatLines post := by
  rw [hlines] at hfl
  exact ⟨fun l hl => hfl l (by simp [hl]), fun l hl => hfl l (by simp [hl])⟩

include hw hs ht hlines hlines' hfg in
theorem paste_flat : Flat (w.write (w.cwd ++ [f]) s') := by
  intro n u hu
  simp only [World.write] at hu
  by_cases hn : n = f
  · subst hn
    simp only [if_true, Option.some.injEq] at hu
    subst hu
    obtain ⟨h1, h2⟩ := paste_flat_parts s i pre post hlines (hw n s hs)
    have h3 := hw g t ht
    rw [hlines']
    intro l hl
    rcases List.mem_append.1 hl with hl | hl
    · rcases List.mem_append.1 hl with hl | hl
      · exact h1 l hl
      · exact h3 l hl
    · exact h2 l hl
  · rw [if_neg (by simpa using hn)] at hu
    exact hw n u hu

include hw hf hg hfg hs ht hlines hlines' hi hstart hpost in
theorem paste_forward (fuel : Nat) :
    Sim w (w.write (w.cwd ++ [f]) s') (Ledger.addFromFile (M := M) env fuel) (Ledger.addFromFile env fuel) := by
  induction fuel with
  | zero => intro l n l1 w1 _ h; cases h
  | succ k ih =>
    intro l n l1 w1 hn h
    simp only [Ledger.addFromFile, hn.read, hn.cdParent] at h ⊢
    by_cases hnf : n = f
    · subst hnf
      obtain ⟨hf1, hf2⟩ := paste_flat_parts s i pre post hlines (hw n s hs)
      rw [hs] at h
      simp only [World.write, if_true]
      simp only [hlines] at h
      simp only [hlines']
      rw [addLinesFrom_around env _ pre post i g hi hpost] at h
      rw [List.append_assoc, addLinesFrom_append env _ pre _ (hstart.append hpost)]
      -- what is before
      simp only [bind, Except.bind] at h ⊢
      cases h1 : Ledger.addLinesFrom env (Ledger.addFromFile env k) pre (l, w) [] with
      | error e => rw [h1] at h; cases h
      | ok r =>
        obtain ⟨l2, w2⟩ := r
        rw [h1] at h
        obtain ⟨rfl, h1'⟩ := addLinesFrom_sim env w _ _ _ ih pre hf1 l l2 w2 [] .nil h1
        have h1'' := h1'
        simp only [World.write] at h1''
        rw [h1'']
        simp only at h ⊢
        -- the file
        cases h2 : Ledger.addFromFile env k (l2, w2) g with
        | error e => rw [h2] at h; cases h
        | ok r =>
          obtain ⟨l3, w3⟩ := r
          rw [h2] at h
          obtain ⟨rfl, h2'⟩ := ih l2 g l3 w3 hg h2
          cases k with
          | zero => cases h2
          | succ k' =>
            simp only [Ledger.addFromFile, hg.read, hg.cdParent] at h2'
            have hne : w3.cwd ++ [g] ≠ w3.cwd ++ [n] := by simpa using hfg
            simp only [World.write, if_neg hne, ht] at h2'
            have h3 := addLinesFrom_mono env _ (Ledger.addFromFile env (k' + 1))
              (fun st p r hh => addFromFile_mono env k' 1 st r p hh) _ _ _ _ h2'
            rw [addLinesFrom_append env _ (lines t) post hpost]
            simp only [bind, Except.bind]
            rw [h3]
            simp only at h ⊢
            exact addLinesFrom_sim env w3 _ _ _ ih post hf2 l3 l1 w1 [] .nil h
    · cases hu : w.file (w.cwd ++ [n]) with
      | none => rw [hu] at h; cases h
      | some u =>
        rw [hu] at h
        have hne : w.cwd ++ [n] ≠ w.cwd ++ [f] := by simpa using hnf
        have := addLinesFrom_sim env w _ _ _ ih (lines u) (hw n u hu) l l1 w1 [] .nil h
        simp only [World.write, if_neg hne, hu] at this ⊢
        exact this

include hw hf hg hfg hs ht hlines hlines' hi hstart hpost in
theorem paste_backward (fuel : Nat) :
    Sim (w.write (w.cwd ++ [f]) s') w (Ledger.addFromFile (M := M) env fuel)
      (Ledger.addFromFile env (2 * fuel)) := by
  have hflat' := paste_flat w hw f g s s' t i pre post hfg hs ht hlines hlines'
  induction fuel with
  | zero => intro l n l1 w1 _ h; cases h
  | succ k ih =>
    intro l n l1 w1 hn h
    have e2 : 2 * (k + 1) = 2 * k + 1 + 1 := by omega
    rw [e2]
    have hmono : ∀ st p r, Ledger.addFromFile (M := M) env (2 * k) st p = .ok r →
        Ledger.addFromFile env (2 * k + 1) st p = .ok r :=
      fun st p r hh => addFromFile_mono env (2 * k) 1 st r p hh
    rw [Ledger.addFromFile] at h ⊢
    rw [hn.read, hn.cdParent] at h ⊢
    by_cases hnf : n = f
    · subst hnf
      obtain ⟨hf1, hf2⟩ := paste_flat_parts s i pre post hlines (hw n s hs)
      have e1 : (w.write (w.cwd ++ [n]) s').file ((w.write (w.cwd ++ [n]) s').cwd ++ [n]) = some s' := by
        simp [World.write]
      rw [e1] at h
      simp only at h
      simp only [hs, hlines]
      rw [hlines', List.append_assoc, addLinesFrom_append env _ pre _ (hstart.append hpost)] at h
      rw [addLinesFrom_around env _ pre post i g hi hpost]
      simp only [bind, Except.bind] at h ⊢
      cases h1 : Ledger.addLinesFrom env (Ledger.addFromFile env k) pre (l, w.write (w.cwd ++ [n]) s') [] with
      | error e => rw [h1] at h; cases h
      | ok r =>
        obtain ⟨l2, w2⟩ := r
        rw [h1] at h
        simp only at h
        obtain ⟨hw2, h1'⟩ := addLinesFrom_sim env _ w _ _ ih pre hf1 l l2 w2 [] .nil h1
        subst hw2
        rw [addLinesFrom_mono env _ _ hmono _ _ _ _ h1']
        simp only
        rw [addLinesFrom_append env _ (lines t) post hpost] at h
        simp only [bind, Except.bind] at h
        cases h2 : Ledger.addLinesFrom env (Ledger.addFromFile env k) (lines t)
            (l2, w.write (w.cwd ++ [n]) s') [] with
        | error e => rw [h2] at h; cases h
        | ok r =>
          obtain ⟨l3, w3⟩ := r
          rw [h2] at h
          simp only at h
          obtain ⟨hw3, h2'⟩ := addLinesFrom_sim env _ w _ _ ih (lines t) (hw g t ht) l2 l3 w3 [] .nil h2
          subst hw3
          have h3 : Ledger.addFromFile env (2 * k + 1) (l2, w) g = .ok (l3, w) := by
            rw [Ledger.addFromFile, hg.read, hg.cdParent]
            simp only [ht]
            exact h2'
          rw [h3]
          simp only
          obtain ⟨hw1, h4⟩ := addLinesFrom_sim env _ w _ _ ih post hf2 l3 l1 w1 [] .nil h
          exact ⟨hw1, addLinesFrom_mono env _ _ hmono _ _ _ _ h4⟩
    · have hne : w.cwd ++ [n] ≠ w.cwd ++ [f] := by simpa using hnf
      have e1 : (w.write (w.cwd ++ [f]) s').file ((w.write (w.cwd ++ [f]) s').cwd ++ [n]) = w.file (w.cwd ++ [n]) := by
        simp only [World.write, if_neg hne]
      rw [e1] at h
      cases hu : w.file (w.cwd ++ [n]) with
      | none => rw [hu] at h; cases h
      | some u =>
        rw [hu] at h
        simp only at h ⊢
        obtain ⟨hw1, h4⟩ := addLinesFrom_sim env _ w _ _ ih (lines u) (hw n u hu) l l1 w1 [] .nil h
        exact ⟨hw1, addLinesFrom_mono env _ _ hmono _ _ _ _ h4⟩

include hw hf hg hfg hs ht hlines hlines' hi hstart hpost in
/-- In a journal whose files are all in one directory, the line `include g` of the file `f` may be
replaced by the lines of `g`: the same ledger is loaded, whatever file is loaded first. (Not proved,
because false: files in other directories, `C54_relative_include`; and an `include` line followed by
an indented line.) -/
theorem C54_include_is_paste_partial (path : Str) (hpath : bare path) (l : Ledger M) :
    Loads env w path l ↔ Loads env (w.write (w.cwd ++ [f]) s') path l := by
  constructor
  · rintro ⟨fuel, w1, h⟩
    exact ⟨fuel, _, (paste_forward env w hw f g s s' t i pre post hf hg hfg hs ht hlines hi hlines' hstart hpost
      fuel _ path l w1 hpath h).2⟩
  · rintro ⟨fuel, w1, h⟩
    exact ⟨2 * fuel, _, (paste_backward env w hw f g s s' t i pre post hf hg hfg hs ht hlines hi hlines' hstart hpost
      fuel _ path l w1 hpath h).2⟩

end Paste

/-! The hypotheses can be met. -/

instance decFlatLine (toks : List Str) :
    Decidable (∀ r, toks = s%"include" :: r → ∃ v r', r = v :: r' ∧ bare v) :=
  match toks with
  | [] => .isTrue (by intro r h; cases h)
  | [t] => if h : t = s%"include" then .isFalse (by
        subst h; intro hh; obtain ⟨_, _, h, _⟩ := hh [] rfl; cases h)
      else .isTrue (by intro r e; cases e; exact absurd rfl h)
  | t :: v :: r' => if h : t = s%"include" then
        if hb : bare v then .isTrue (by intro r e; cases e; exact ⟨v, r', rfl, hb⟩)
        else .isFalse (by subst h; intro hh; obtain ⟨_, _, h, h'⟩ := hh _ rfl; cases h; exact hb h')
      else .isTrue (by intro r e; cases e; exact absurd rfl h)

instance (ls : List Str) : Decidable (FlatLines ls) := by unfold FlatLines IncludeLines; infer_instance

theorem disk_flat (files : List (String × String)) (h : ∀ f ∈ files, FlatLines (lines f.2.toList)) :
    Flat (disk files) := by
  intro n t ht
  simp only [disk, List.singleton_append, if_true] at ht
  cases hx : files.find? fun f => f.1.toList == n with
  | none => rw [hx] at ht; cases ht
  | some f =>
    rw [hx] at ht
    cases ht
    exact h f (List.mem_of_find?_eq_some hx)

/-- A journal of three files. -/
def threeFiles : World := disk
  [("j", "account a\ninclude k ; the rest\n\n2024/01/02 * x\n a 1\n b\n"), ("k", "; k\ninclude m\n"),
   ("m", "account b\n")]

example (l : Ledger F64) : Loads (stdEnv june15) threeFiles s%"j" l ↔
    Loads (stdEnv june15) (threeFiles.write [s%"h", s%"j"]
      "account a\n; k\ninclude m\n\n2024/01/02 * x\n a 1\n b\n".toList) s%"j" l :=
  C54_include_is_paste_partial (stdEnv june15) threeFiles (disk_flat _ (by decide +kernel)) s%"j" s%"k"
    "account a\ninclude k ; the rest\n\n2024/01/02 * x\n a 1\n b\n".toList _ "; k\ninclude m\n".toList
    s%"include k ; the rest" [s%"account a"] [[], s%"2024/01/02 * x", s%" a 1", s%" b"]
    (by decide) (by decide) (by decide) (by decide +kernel) (by decide +kernel) (by decide +kernel)
    ⟨by decide, [], by decide⟩ (by decide +kernel) (by decide +kernel) (by decide +kernel) s%"j" (by decide) l

/-- and it loads -/
example : ∃ r, (Ledger.fromFile (stdEnv june15) 9 threeFiles s%"j" : Res (Ledger F64 × World)) = .ok r ∧
    r.1.accountNames = [s%"a", s%"b"] ∧ r.1.entries.length = 1 := by
  decide +kernel

/-- The claim is false in general: of two files in subdirectories, the second is not found after the
first, as the working directory has changed; pasted, the journal loads. -/
theorem C54_relative_include :
    (Ledger.fromFile (stdEnv june15) 9 (subdirDisk [([s%"h", s%"j"], s%"include x/a\ninclude y/b\n"),
      ([s%"h", s%"x", s%"a"], s%"account a\n"), ([s%"h", s%"y", s%"b"], s%"account b\n")]) s%"j" :
        Res (Ledger F64 × World)).map (fun _ => ()) = fail .file ∧
    ((Ledger.fromFile (stdEnv june15) 9 (subdirDisk [([s%"h", s%"j"], s%"account a\naccount b\n")]) s%"j" :
        Res (Ledger F64 × World)).isOk = true) := by
  constructor <;> decide +kernel

example : Extended [s%"h", s%"j"] threeFiles (execute Rat (stdEnv june15) exOutside
    ⟨some s%"j", .balance, false, none, none⟩ threeFiles).1 :=
  C60_one_directory_partial Rat _ _ _ _ (disk_flat _ (by decide +kernel)) s%"j" (by decide) rfl

end Silverfox
