import Verif.Props.Refuse

/-
C88: a journal means its items, read in order, each once; included files are read where they are included.
-/

namespace Silverfox

set_option linter.unusedSectionVars false
variable {M : Type} [Mag M]

/-! ### Specification -/

/-- Specification: the items of these lines, in order. An item is a line that begins without white space and the
lines that continue it; what comes before the first such line is an item too. -/
structure Itemised (ls : List Str) (items : List Str) : Prop where
  exist : ∃ (lead : List Str) (blocks : List (Str × List Str)),
    ls = lead ++ blocks.flatMap (fun b => b.1 :: b.2) ∧ Continuing lead ∧
    (∀ b ∈ blocks, Continuing b.2 ∧ ∃ c r, effective b.1 = c :: r ∧ isWs c = false) ∧
    items = restOf lead :: blocks.map fun b => effective b.1 ++ restOf b.2

/-- What there is to read: a file, or items. -/
inductive Task where
  | file (path : Str)
  | items (cs : List Str)

/-- Specification: what reading does. A ledger and a directory become a ledger and a directory. -/
inductive Denotes (env : Env) (file : APath → Option Str) : Ledger M × APath → Task → Ledger M × APath → Prop
  | file (l : Ledger M) (cwd : APath) (path t : Str) (cs : List Str) (st : Ledger M × APath) :
      endsInName path = true → file (resolve cwd path) = some t → Itemised (lines t) cs →
      Denotes env file (l, (resolve cwd path).dropLast) (.items cs) st → Denotes env file (l, cwd) (.file path) st
  | done (st : Ledger M × APath) : Denotes env file st (.items []) st
  | nothing (st st' : Ledger M × APath) (c : Str) (cs : List Str) : splitWs c = [] →
      Denotes env file st (.items cs) st' → Denotes env file st (.items (c :: cs)) st'
  | item (l l' : Ledger M) (cwd : APath) (st' : Ledger M × APath) (c : Str) (cs : List Str) : Reading env c l l' →
      Denotes env file (l', cwd) (.items cs) st' → Denotes env file (l, cwd) (.items (c :: cs)) st'
  | incl (st st1 st' : Ledger M × APath) (c v : Str) (more cs : List Str) :
      splitWs c = s%"include" :: v :: more → Denotes env file st (.file v) st1 →
      Denotes env file st1 (.items cs) st' → Denotes env file st (.items (c :: cs)) st'

/-! ### Items -/

theorem itemised_exists (ls : List Str) : ∃ items, Itemised ls items := by
  suffices h : ∃ (lead : List Str) (blocks : List (Str × List Str)),
      ls = lead ++ blocks.flatMap (fun b => b.1 :: b.2) ∧ Continuing lead ∧
      (∀ b ∈ blocks, Continuing b.2 ∧ ∃ c r, effective b.1 = c :: r ∧ isWs c = false) by
    obtain ⟨lead, blocks, h1, h2, h3⟩ := h
    exact ⟨_, ⟨lead, blocks, h1, h2, h3, rfl⟩⟩
  induction ls with
  | nil => exact ⟨[], [], rfl, (by intro l hl; cases hl), (by intro b hb; cases hb)⟩
  | cons l ls ih =>
    obtain ⟨lead, blocks, h1, h2, h3⟩ := ih
    have cont : (∀ c, (effective l).head? = some c → isWs c = true) → _ := fun h =>
      (⟨l :: lead, blocks, by rw [h1]; rfl, by
        intro x hx
        rcases List.mem_cons.1 hx with rfl | hx
        · exact h
        · exact h2 x hx, h3⟩ : ∃ (lead : List Str) (blocks : List (Str × List Str)),
      l :: ls = lead ++ blocks.flatMap (fun b => b.1 :: b.2) ∧ Continuing lead ∧
      (∀ b ∈ blocks, Continuing b.2 ∧ ∃ c r, effective b.1 = c :: r ∧ isWs c = false))
    cases he : effective l with
    | nil => exact cont (by rw [he]; intro c hc; cases hc)
    | cons c r =>
      cases hc : isWs c with
      | true => exact cont (by rw [he]; intro c' hc'; cases hc'; exact hc)
      | false =>
        refine ⟨[], (l, lead) :: blocks, by rw [h1]; rfl, (by intro x hx; cases hx), ?_⟩
        intro b hb
        rcases List.mem_cons.1 hb with rfl | hb
        · exact ⟨h2, c, r, he, hc⟩
        · exact h3 b hb

theorem restOf_cons (l : Str) (ls : List Str) :
    restOf (l :: ls) = (if effective l = [] then [] else '\n' :: effective l) ++ restOf ls := by
  unfold restOf
  by_cases h : effective l = [] <;> simp [h]

/-- Read items one after the other. -/
def readItems (env : Env) (inc : Ledger M × World → Str → Res (Ledger M × World)) :
    List Str → Ledger M × World → Res (Ledger M × World)
  | [], st => .ok st
  | c :: cs, st => do
    let st ← Ledger.parseChunk env inc st c
    readItems env inc cs st

theorem addLinesFrom_cons (env : Env) (inc : Ledger M × World → Str → Res (Ledger M × World)) (l : Str)
    (ls : List Str) (st : Ledger M × World) (chunk : Str) :
    Ledger.addLinesFrom env inc (l :: ls) st chunk = (match effective l with
      | [] => Ledger.addLinesFrom env inc ls st chunk
      | c :: _ => if isWs c then Ledger.addLinesFrom env inc ls st (chunk ++ '\n' :: effective l)
          else do
            let st ← Ledger.parseChunk env inc st chunk
            Ledger.addLinesFrom env inc ls st (effective l)) := rfl

theorem addLinesFrom_continuing (env : Env) (inc : Ledger M × World → Str → Res (Ledger M × World))
    (lead : List Str) (hl : Continuing lead) (ls : List Str) (st : Ledger M × World) (chunk : Str) :
    Ledger.addLinesFrom env inc (lead ++ ls) st chunk = Ledger.addLinesFrom env inc ls st (chunk ++ restOf lead) := by
  induction lead generalizing chunk with
  | nil => simp [restOf]
  | cons l lead ih =>
    have ih := ih (fun x hx => hl x (by simp [hx]))
    have hc := hl l (by simp)
    rw [List.cons_append, addLinesFrom_cons, restOf_cons]
    cases he : effective l with
    | nil => simp only [if_true, List.nil_append]; exact ih chunk
    | cons c r =>
      rw [he] at hc
      simp only [hc c rfl, if_true]
      rw [ih, if_neg (by simp), List.append_assoc]

theorem addLinesFrom_items (env : Env) (inc : Ledger M × World → Str → Res (Ledger M × World))
    (blocks : List (Str × List Str))
    (hb : ∀ b ∈ blocks, Continuing b.2 ∧ ∃ c r, effective b.1 = c :: r ∧ isWs c = false)
    (lead : List Str) (hl : Continuing lead) (st : Ledger M × World) (chunk : Str) :
    Ledger.addLinesFrom env inc (lead ++ blocks.flatMap fun b => b.1 :: b.2) st chunk =
      readItems env inc ((chunk ++ restOf lead) :: blocks.map fun b => effective b.1 ++ restOf b.2) st := by
  rw [addLinesFrom_continuing env inc lead hl]
  generalize chunk ++ restOf lead = chunk
  induction blocks generalizing st chunk with
  | nil =>
    simp only [List.flatMap_nil, List.map_nil, readItems, Ledger.addLinesFrom]
    cases Ledger.parseChunk env inc st chunk <;> rfl
  | cons b blocks ih =>
    obtain ⟨h1, c, r, h2, h3⟩ := hb b (by simp)
    rw [List.flatMap_cons, List.cons_append, addLinesFrom_cons, h2]
    simp only [h3, Bool.false_eq_true, if_false, readItems, List.map_cons]
    simp only [bind, Except.bind]
    cases Ledger.parseChunk env inc st chunk with
    | error f => rfl
    | ok st1 =>
      simp only
      rw [addLinesFrom_continuing env inc b.2 h1, ih (fun b' hb' => hb b' (by simp [hb'])), h2]
      rfl

theorem addFromFile_items (env : Env) (fuel : Nat) (st : Ledger M × World) (path t : Str) (cs : List Str)
    (hr : st.2.read path = some t) (hc : Itemised (lines t) cs) :
    Ledger.addFromFile env (fuel + 1) st path =
      readItems env (Ledger.addFromFile env fuel) cs (st.1, st.2.cdParent path) := by
  obtain ⟨lead, blocks, h1, h2, h3, rfl⟩ := hc.exist
  rw [Ledger.addFromFile, hr]
  simp only
  rw [h1]
  exact addLinesFrom_items env _ blocks h3 lead h2 _ []

theorem addFromFile_deeper' (env : Env) (f k : Nat) (st st' : Ledger M × World) (p : Str)
    (h : Ledger.addFromFile env f st p = .ok st') : Ledger.addFromFile env (f + k) st p = .ok st' := by
  induction k with
  | zero => exact h
  | succ k ih => rw [← ih]; exact addFromFile_deeper env (f + k) st p (by rw [ih]; intro h; cases h)

theorem readItems_deeper (env : Env) (f k : Nat) (cs : List Str) (st st' : Ledger M × World)
    (h : readItems env (Ledger.addFromFile env f) cs st = .ok st') :
    readItems env (Ledger.addFromFile env (f + k)) cs st = .ok st' := by
  induction cs generalizing st with
  | nil => exact h
  | cons c cs ih =>
    simp only [readItems, bind, Except.bind] at h ⊢
    cases hp : Ledger.parseChunk env (Ledger.addFromFile env f) st c with
    | error e => rw [hp] at h; cases h
    | ok st1 =>
      rw [hp] at h
      rw [parseChunk_deeper env _ (Ledger.addFromFile env (f + k)) _ st c (by rw [hp]; intro h; cases h), hp]
      · exact ih st1 h
      · intro st p hne
        clear ih
        induction k with
        | zero => rfl
        | succ k ihk =>
          rw [← ihk]; exact addFromFile_deeper env (f + k) st p (by rw [ihk]; exact hne)

/-- An item that is read. -/
theorem parseChunk_of_reading (env : Env) (inc : Ledger M × World → Str → Res (Ledger M × World))
    (l l' : Ledger M) (w : World) (chunk : Str) (h : Reading env chunk l l') :
    Ledger.parseChunk env inc (l, w) chunk = .ok (l', w) := by
  have ne : (splitWs chunk).head? ≠ none → chunk.isEmpty = false := by
    intro h
    cases chunk with
    | nil => exact absurd rfl h
    | cons => rfl
  unfold Ledger.parseChunk
  cases h with
  | account a h1 h2 =>
    rw [if_neg (by rw [ne (by rw [h1]; simp)]; simp)]
    cases hs : splitWs chunk with
    | nil => rw [hs] at h1; cases h1
    | cons kw rest =>
      rw [hs] at h1
      cases h1
      simp only [if_true, Ledger.parseAccount, h2, bind, Except.bind, pure, Except.pure]
  | currency v more h1 =>
    rw [if_neg (by rw [ne (by rw [h1]; simp)]; simp), h1]
    rfl
  | dateFormat v more h1 =>
    rw [if_neg (by rw [ne (by rw [h1]; simp)]; simp), h1]
    rfl
  | entry kw x _ h1 h2 h3 h4 =>
    rw [if_neg (by rw [ne (by rw [h1]; simp)]; simp)]
    cases hs : splitWs chunk with
    | nil => rw [hs] at h1; cases h1
    | cons kw' rest =>
      rw [hs] at h1
      cases h1
      simp only [List.mem_cons, List.not_mem_nil, or_false, not_or] at h2
      simp only [h2, if_false, Ledger.parseEntry, h3, h4, bind, Except.bind, pure, Except.pure]

theorem parseChunk_of_include (env : Env) (inc : Ledger M × World → Str → Res (Ledger M × World))
    (st : Ledger M × World) (chunk v : Str) (more : List Str) (h : splitWs chunk = s%"include" :: v :: more) :
    Ledger.parseChunk env inc st chunk = inc st v := by
  unfold Ledger.parseChunk
  rw [if_neg, h]
  · rfl
  · intro ht
    rw [List.isEmpty_iff.1 ht] at h
    cases h

theorem parseChunk_of_nothing (env : Env) (inc : Ledger M × World → Str → Res (Ledger M × World))
    (st : Ledger M × World) (chunk : Str) (h : splitWs chunk = []) : Ledger.parseChunk env inc st chunk = .ok st := by
  unfold Ledger.parseChunk
  rw [h]
  split <;> rfl

theorem parseChunk_reading' (env : Env) (inc : Ledger M × World → Str → Res (Ledger M × World))
    (st st' : Ledger M × World) (chunk : Str) (hz : splitWs chunk ≠ [])
    (h : Ledger.parseChunk env inc st chunk = .ok st') :
    (Reading env chunk st.1 st'.1 ∧ st'.2 = st.2) ∨
      ∃ v more, splitWs chunk = s%"include" :: v :: more ∧ inc st v = .ok st' :=
  (parseChunk_reading env inc st st' chunk h).resolve_left fun h' => hz h'.1

/-! ### C88 -/

theorem loads_sound (env : Env) (w : World) (st st' : Ledger M × APath) (task : Task)
    (h : Denotes env w.file st task st') :
    match task with
    | .file p => ∃ fuel, Ledger.addFromFile env fuel (st.1, { w with cwd := st.2 }) p = .ok (st'.1, { w with cwd := st'.2 })
    | .items cs => ∃ fuel, readItems env (Ledger.addFromFile env fuel) cs (st.1, { w with cwd := st.2 }) =
        .ok (st'.1, { w with cwd := st'.2 }) := by
  induction h with
  | file l cwd path t cs st h1 h2 h3 _ ih =>
    obtain ⟨fuel, ih⟩ := ih
    refine ⟨fuel + 1, ?_⟩
    rw [addFromFile_items env fuel _ path t cs (by simp only [World.read, h1, if_true]; exact h2) h3]
    exact ih
  | done st => exact ⟨0, rfl⟩
  | nothing st st' c cs h1 _ ih =>
    obtain ⟨fuel, ih⟩ := ih
    refine ⟨fuel, ?_⟩
    rw [readItems, parseChunk_of_nothing env _ _ c h1]
    exact ih
  | item l l' cwd st' c cs h1 _ ih =>
    obtain ⟨fuel, ih⟩ := ih
    refine ⟨fuel, ?_⟩
    rw [readItems, parseChunk_of_reading env _ _ _ _ c h1]
    exact ih
  | incl st st1 st' c v more cs h1 _ _ ih1 ih2 =>
    obtain ⟨f1, ih1⟩ := ih1
    obtain ⟨f2, ih2⟩ := ih2
    refine ⟨f1 + f2, ?_⟩
    rw [readItems, parseChunk_of_include env _ _ c v more h1, addFromFile_deeper' env f1 f2 _ _ v ih1]
    rw [Nat.add_comm]
    exact readItems_deeper env f2 f1 cs _ _ ih2

theorem loads_complete (env : Env) (w : World) (fuel : Nat) (path : Str) (st st' : Ledger M × World)
    (hw : st.2 = { w with cwd := st.2.cwd }) (h : Ledger.addFromFile env fuel st path = .ok st') :
    Denotes env w.file (st.1, st.2.cwd) (.file path) (st'.1, st'.2.cwd) ∧ st'.2 = { w with cwd := st'.2.cwd } := by
  induction fuel generalizing path st st' with
  | zero => cases h
  | succ f ih =>
    cases hr : st.2.read path with
    | none => rw [Ledger.addFromFile, hr] at h; cases h
    | some t =>
      obtain ⟨cs, hcs⟩ := itemised_exists (lines t)
      rw [addFromFile_items env f st path t cs hr hcs] at h
      have key : ∀ (cs : List Str) (s0 : Ledger M × World), s0.2 = { w with cwd := s0.2.cwd } →
          readItems env (Ledger.addFromFile env f) cs s0 = .ok st' →
          Denotes env w.file (s0.1, s0.2.cwd) (.items cs) (st'.1, st'.2.cwd) ∧ st'.2 = { w with cwd := st'.2.cwd } := by
        intro cs
        induction cs with
        | nil => intro s0 h0 h; cases h; exact ⟨.done _, h0⟩
        | cons c cs ihc =>
          intro s0 h0 h
          simp only [readItems, bind, Except.bind] at h
          cases hp : Ledger.parseChunk env (Ledger.addFromFile env f) s0 c with
          | error e => rw [hp] at h; cases h
          | ok s1 =>
            rw [hp] at h
            by_cases hz : splitWs c = []
            · rw [parseChunk_of_nothing env _ _ c hz] at hp
              cases hp
              obtain ⟨h1, h2⟩ := ihc s0 h0 h
              exact ⟨.nothing _ _ c cs hz h1, h2⟩
            · rcases parseChunk_reading' env _ s0 s1 c hz hp with ⟨h1, h2⟩ | ⟨v, more, h1, h2⟩
              · obtain ⟨h3, h4⟩ := ihc s1 (by rw [h2]; exact h0) h
                rw [h2] at h3
                exact ⟨.item _ _ _ _ c cs h1 h3, h4⟩
              · obtain ⟨h3, h4⟩ := ih v s0 s1 h0 h2
                obtain ⟨h5, h6⟩ := ihc s1 h4 h
                exact ⟨.incl _ _ _ c v more cs h1 h3 h5, h6⟩
      obtain ⟨h1, h2⟩ := key cs (st.1, st.2.cdParent path) (by rw [World.cdParent, hw]) h
      unfold World.read at hr
      split at hr
      · rename_i he
        exact ⟨.file _ _ path t cs _ he (by rw [← hr, hw]) hcs h1, h2⟩
      · cases hr

/-- C88. Loading a journal succeeds with a ledger exactly if that ledger comes from the empty one by reading the
items of the file in order, every one once, and those of included files in place of the directives. -/
theorem C88_loading_reads_the_items (env : Env) (w : World) (path : Str) (l : Ledger M) (cwd : APath) :
    (∃ fuel, Ledger.fromFile env fuel w path = .ok (l, { w with cwd := cwd })) ↔
      Denotes env w.file (Ledger.new path, w.cwd) (.file path) (l, cwd) := by
  constructor
  · rintro ⟨fuel, h⟩
    exact (loads_complete env w fuel path (Ledger.new path, w) _ rfl h).1
  · intro h
    exact loads_sound env w _ _ _ h

/-- The decomposition of lines into items is unique. -/
theorem blocks_unique (ls : List Str) (lead lead' : List Str) (bs bs' : List (Str × List Str))
    (h1 : ls = lead ++ bs.flatMap (fun b => b.1 :: b.2)) (h2 : Continuing lead)
    (h3 : ∀ b ∈ bs, Continuing b.2 ∧ ∃ c r, effective b.1 = c :: r ∧ isWs c = false)
    (h1' : ls = lead' ++ bs'.flatMap (fun b => b.1 :: b.2)) (h2' : Continuing lead')
    (h3' : ∀ b ∈ bs', Continuing b.2 ∧ ∃ c r, effective b.1 = c :: r ∧ isWs c = false) :
    lead = lead' ∧ bs = bs' := by
  have clash : ∀ (l : Str) (ls : List Str) (b : Str × List Str), Continuing (l :: ls) → l = b.1 →
      (Continuing b.2 ∧ ∃ c r, effective b.1 = c :: r ∧ isWs c = false) → False := by
    intro l ls b hc hl hb
    obtain ⟨_, c, r, he, hw⟩ := hb
    have := hc l (by simp) c (by rw [hl, he]; rfl)
    rw [hw] at this; cases this
  induction ls generalizing lead lead' bs bs' with
  | nil =>
    have e := List.append_eq_nil_iff.1 h1.symm
    have e' := List.append_eq_nil_iff.1 h1'.symm
    refine ⟨by rw [e.1, e'.1], ?_⟩
    cases bs with
    | cons b bs => simp at e
    | nil =>
      cases bs' with
      | cons b bs => simp at e'
      | nil => rfl
  | cons l ls ih =>
    have tailc : ∀ {x : Str} {xs : List Str}, Continuing (x :: xs) → Continuing xs :=
      fun h y hy => h y (by simp [hy])
    cases lead with
    | cons x lead =>
      rw [List.cons_append, List.cons.injEq] at h1
      obtain ⟨rfl, h1⟩ := h1
      cases lead' with
      | cons x' lead' =>
        rw [List.cons_append, List.cons.injEq] at h1'
        obtain ⟨rfl, h1'⟩ := h1'
        obtain ⟨h4, h5⟩ := ih lead lead' bs bs' h1 (tailc h2) h3 h1' (tailc h2') h3'
        exact ⟨by rw [h4], h5⟩
      | nil =>
        cases bs' with
        | nil => cases h1'
        | cons b bs' =>
          rw [List.nil_append, List.flatMap_cons, List.cons_append, List.cons.injEq] at h1'
          exact (clash l lead b h2 h1'.1 (h3' b (by simp))).elim
    | nil =>
      cases bs with
      | nil => cases h1
      | cons b bs =>
        rw [List.nil_append, List.flatMap_cons, List.cons_append, List.cons.injEq] at h1
        cases lead' with
        | cons x' lead' =>
          rw [List.cons_append, List.cons.injEq] at h1'
          obtain ⟨rfl, _⟩ := h1'
          exact (clash l lead' b h2' h1.1 (h3 b (by simp))).elim
        | nil =>
          cases bs' with
          | nil => cases h1'
          | cons b' bs' =>
            rw [List.nil_append, List.flatMap_cons, List.cons_append, List.cons.injEq] at h1'
            obtain ⟨h4, h5⟩ := ih b.2 b'.2 bs bs' h1.2 (h3 b (by simp)).1 (fun x hx => h3 x (by simp [hx]))
              h1'.2 (h3' b' (by simp)).1 (fun x hx => h3' x (by simp [hx]))
            exact ⟨rfl, by rw [h5, show b = b' from Prod.ext (h1.1.symm.trans h1'.1) h4]⟩

/-- C88: there is one way to divide a text into items, and always one. -/
theorem C88_items_of_a_text (ls : List Str) : ∃ items, Itemised ls items ∧ ∀ other, Itemised ls other → other = items := by
  obtain ⟨items, h⟩ := itemised_exists ls
  refine ⟨items, h, fun other h' => ?_⟩
  obtain ⟨lead, bs, h1, h2, h3, rfl⟩ := h.exist
  obtain ⟨lead', bs', h1', h2', h3', rfl⟩ := h'.exist
  obtain ⟨rfl, rfl⟩ := blocks_unique ls lead lead' bs bs' h1 h2 h3 h1' h2' h3'
  rfl

instance (ls : List Str) : Decidable (Continuing ls) :=
  decidable_of_iff (ls.all (fun l => (effective l).head?.all isWs) = true) ⟨fun h l hl c hc => by
    have := List.all_eq_true.1 h l hl
    rw [hc] at this
    exact this, Continuing.all⟩

/-- The items of a text with a leading comment, a directive, an entry and an account. -/
example : Itemised (lines "; mine\ncurrency $\n\n2024/01/02 * shop ; hm\n  a  3\n  b\naccount c\n".toList)
    [[], s%"currency $", s%"2024/01/02 * shop \n  a  3\n  b", s%"account c"] :=
  ⟨[s%"; mine"], [(s%"currency $", [[]]), (s%"2024/01/02 * shop ; hm", [s%"  a  3", s%"  b"]), (s%"account c", [])],
    by decide, by decide +kernel, by
      intro b hb
      simp only [List.mem_cons, List.not_mem_nil, or_false] at hb
      rcases hb with rfl | rfl | rfl <;> refine ⟨by decide +kernel, _, _, rfl, by decide⟩, by decide +kernel⟩

/-- The two files of `Refuse` are loaded, so the relation of C88 holds of them. -/
example : ∃ (l : Ledger Rat) (cwd : APath),
    Denotes (stdEnv june15) twoFiles.file (Ledger.new s%"j", twoFiles.cwd) (.file s%"j") (l, cwd) ∧
    l.entries.length = 1 ∧ l.accounts.length = 2 := by
  have : ∃ r : Ledger Rat × World, Ledger.fromFile (stdEnv june15) 2 twoFiles s%"j" = .ok r ∧
    (r.1.entries.length = 1 ∧ r.1.accounts.length = 2) := by decide +kernel
  obtain ⟨r, h1, h2⟩ := this
  exact ⟨r.1, r.2.cwd, (loads_complete (stdEnv june15) twoFiles 2 s%"j" (Ledger.new s%"j", twoFiles) r rfl h1).1, h2⟩

end Silverfox
