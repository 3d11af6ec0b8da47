import Verif.Props.Declare
import Verif.Props.Reload

/-
C109: a journal that is written out, declarations, directives and entries, is read as what is written.
-/

namespace Silverfox

set_option linter.unusedSectionVars false
variable {M : Type} [Mag M]

/-! ### Specification -/

/-- Specification: a line with nothing on it, or with nothing but a comment from its beginning on. -/
def EmptyLine (l : Str) : Prop := allWs l ∨ l.head? = some ';' ∨ s%"//" <+: l

/-- Every line of the declaration of an envelope is indented. -/
def EnvDecl.Indented (d : EnvDecl M) : Prop := d.indent ≠ [] ∧ ∀ p ∈ d.props, p.1 ≠ []

/-- Specification: the account that is declared, see `IsWritten` (C91) for what its envelopes are. -/
def declaredAccount (name : Str) (ds : List (MeantDecl M)) : Account M :=
  ⟨name, (ofKind .expense ds).map (MeantDecl.envelope name), (ofKind .goal ds).map (MeantDecl.envelope name), []⟩

/-- Specification: what lines mean for a ledger in a directory. Entries are written as silverfox writes them. -/
inductive Journal (env : Env) (file : APath → Option Str) : Ledger M × APath → List Str → Ledger M × APath → Prop
  | done (st : Ledger M × APath) : Journal env file st [] st
  | empty (st st' : Ledger M × APath) (line : Str) (ls : List Str) : EmptyLine line → Journal env file st ls st' →
      Journal env file st (line :: ls) st'
  | account (l : Ledger M) (cwd : APath) (gap name : Str) (ds : List (MeantDecl M)) (ls : List Str)
      (st' : Ledger M × APath) : allWs gap → gap ≠ [] → noNl gap → isWord name → NoComment name →
      (∀ x ∈ ds, x.1.Ok env l.dateFormat l.decimal x.2.1 x.2.2 ∧ x.1.Indented) →
      (∀ k, ((ofKind k ds).map (·.1.name)).Nodup) →
      Journal env file ({ l with accounts := mapInsert l.accounts name (declaredAccount name ds) }, cwd) ls st' →
      Journal env file (l, cwd) ((s%"account" ++ gap ++ name) :: (ds.flatMap (·.1.lines) ++ ls)) st'
  | currency (l : Ledger M) (cwd : APath) (gap v : Str) (ls : List Str) (st' : Ledger M × APath) :
      allWs gap → gap ≠ [] → isWord v → NoComment v → Journal env file ({ l with currency := v }, cwd) ls st' →
      Journal env file (l, cwd) ((s%"currency" ++ gap ++ v) :: ls) st'
  | dateFormat (l : Ledger M) (cwd : APath) (gap v : Str) (ls : List Str) (st' : Ledger M × APath) :
      allWs gap → gap ≠ [] → isWord v → NoComment v → Journal env file ({ l with dateFormat := v }, cwd) ls st' →
      Journal env file (l, cwd) ((s%"date_format" ++ gap ++ v) :: ls) st'
  | incl (l : Ledger M) (cwd : APath) (gap v t : Str) (ls : List Str) (st1 st' : Ledger M × APath) :
      allWs gap → gap ≠ [] → isWord v → NoComment v → endsInName v = true → file (resolve cwd v) = some t →
      Journal env file (l, (resolve cwd v).dropLast) (lines t) st1 → Journal env file st1 ls st' →
      Journal env file (l, cwd) ((s%"include" ++ gap ++ v) :: ls) st'
  | entry (l l' : Ledger M) (cwd : APath) (e : Entry M) (d text : Str) (ls : List Str) (st' : Ledger M × APath) :
      e.Writable env l.dateFormat d → d ∉ keywords → e.validate = .ok () →
      (∀ p ∈ e.postings, p.isEnvelope = false → p.account ∈ l.accountNames) →
      e.asParsable env l.dateFormat = .ok text → l.addEntry env e.rounded = .ok l' →
      Journal env file (l', cwd) ls st' →
      Journal env file (l, cwd) (lines text ++ ls) st'

/-! ### Lines of a declaration -/

theorem header_rc {env : Env} {fmt : Str} {dec : Char} {d : EnvDecl M} {f : Frequency} {sd : Option Date}
    (h : d.Ok env fmt dec f sd) : rc d.header = d.header := by
  obtain ⟨w1, w2, w3⟩ := h.due.words
  have hn := h.name
  have hrckn : rc (d.kind.text ++ d.gap ++ d.name) = d.kind.text ++ d.gap ++ d.name := by
    rw [List.append_assoc, rc_gap ((noComment_iff _).1 d.kind.text_plain.2.1) hn.gap_ws hn.gap_ne,
      (noComment_iff _).1 hn.noComment]
  have hrcb := w3 _ hrckn
  unfold EnvDecl.header headerText
  have hs := h.starting
  revert hs
  cases d.starting with
  | none => intro _; simpa [startingText] using hrcb
  | some t =>
    intro hs
    cases hs with
    | some _ _ hw _ =>
      have e' : d.kind.text ++ d.gap ++ d.name ++ d.due.text ++ startingText (some t) =
          (d.kind.text ++ d.gap ++ d.name ++ d.due.text) ++ ' ' :: (s%"starting" ++ ' ' :: t) := by
        simp [startingText]
      rw [e', rc_space hrcb, rc_space (by decide), (noComment_iff t).1 hw.2.1]

theorem eff_id (ls : List Str) (h : ∀ l ∈ ls, rc l = l ∧ ∃ r c, l = r ++ [c] ∧ isWs c = false) : eff ls = ls := by
  unfold eff
  have : (ls.map fun l => removeComments (trimEnd l)) = ls := by
    conv => rhs; rw [← List.map_id ls]
    apply List.map_congr_left
    intro l hl
    obtain ⟨h1, r, c, h2, h3⟩ := h l hl
    have : trimEnd l = l := by rw [h2]; exact trimEnd_id (.inr ⟨r, c, rfl, h3⟩)
    rw [this, removeComments_eq_rc, h1]; rfl
  rw [this, List.filter_eq_self]
  intro l hl
  obtain ⟨_, r, c, h2, _⟩ := h l hl
  rw [h2]; simp

theorem decl_rc {env : Env} {fmt : Str} {dec : Char} {d : EnvDecl M} {f : Frequency} {sd : Option Date}
    (h : d.Ok env fmt dec f sd) (hi : d.Indented) : ∀ l ∈ d.lines, rc l = l ∧ l.head?.any isWs = true := by
  have head : ∀ (g x : Str), allWs g → g ≠ [] → (g ++ x).head?.any isWs = true := by
    intro g x hg hne
    obtain ⟨c, g', rfl⟩ := List.exists_cons_of_ne_nil hne
    simpa using hg c (by simp)
  intro l hl
  rcases List.mem_cons.1 hl with rfl | hl
  · exact ⟨by rw [rc_ws h.indent.1, header_rc h], head _ _ h.indent.1 hi.1⟩
  · obtain ⟨p, hp, rfl⟩ := List.mem_map.1 hl
    obtain ⟨q1, q2, q3, q4, q5⟩ := h.props p hp
    refine ⟨?_, head _ _ q1 (hi.2 p hp)⟩
    unfold PropLine.text
    rw [rc_ws q1, rc_space ((noComment_iff _).1 p.2.2.key_plain.2.1), rc_ws q3, (noComment_iff _).1 q5.noComment]

/-! ### Items -/

theorem eff_empty {line : Str} (h : EmptyLine line) (ls : List Str) : eff (line :: ls) = eff ls := by
  have : removeComments (trimEnd line) = [] := by
    rw [removeComments_eq_rc]
    rcases h with h | h | h
    · rw [trimEnd_allWs h]; rfl
    · obtain ⟨r, rfl⟩ : ∃ r, line = ';' :: r := by
        cases line with
        | nil => cases h
        | cons c r => cases h; exact ⟨r, rfl⟩
      obtain ⟨b, hb, e, _⟩ := trimEnd_spec (';' :: r)
      cases ht : trimEnd (';' :: r) with
      | nil =>
        rw [ht] at e
        exact absurd (hb ';' (by rw [← List.nil_append b, ← e]; simp)) (by decide)
      | cons c t =>
        rw [ht] at e
        cases e
        simp [rc, startsMark_cons]
    · obtain ⟨r, rfl⟩ := h
      have hi : ¬ allWs s%"//" := by decide
      have : ∃ t, trimEnd (s%"//" ++ r) = s%"//" ++ t := by
        by_cases hr : allWs r
        · exact ⟨[], by rw [trimEnd_ws _ hr]; decide⟩
        · exact ⟨_, trimEnd_ink _ hr⟩
      obtain ⟨t, ht⟩ := this
      rw [ht]
      simp [rc, startsMark_cons]
  unfold eff
  rw [List.map_cons, this]
  rfl

/-- Lines begin something new, or there is nothing on them. -/
def Begins (ls : List Str) : Prop := ls = [] ∨ ∃ x xs, ls = x :: xs ∧ x.head?.any isWs = false

/-- An item and what comes after it. -/
theorem addEff_item (env : Env) (inc : Ledger M × World → Str → Res (Ledger M × World)) (st st1 : Ledger M × World)
    (a b : List Str) (hb : Begins b) (ha : addEff env inc a st [] = .ok st1) :
    addEff env inc (a ++ b) st [] = addEff env inc b st1 [] := by
  rcases hb with rfl | ⟨x, xs, rfl, hx⟩
  · rw [List.append_nil, ha]
    simp [addEff, parseChunk_nil]
  · rw [addEff_append env inc a x xs hx, ha]
    rfl

theorem addEff_directive (env : Env) (inc : Ledger M × World → Str → Res (Ledger M × World)) (st st' : Ledger M × World)
    (kw gap v : Str) (hk : isWord kw) (hkc : NoComment kw) (hg : allWs gap) (hne : gap ≠ []) (hv : isWord v)
    (hvc : NoComment v)
    (hread : Ledger.parseChunk env inc st (kw ++ gap ++ v) = .ok st') :
    eff [kw ++ gap ++ v] = [kw ++ gap ++ v] ∧ (kw ++ gap ++ v).head?.any isWs = false ∧
    addEff env inc [kw ++ gap ++ v] st [] = .ok st' := by
  have hhead : (kw ++ gap ++ v).head?.any isWs = false := by
    obtain ⟨c, k, rfl⟩ := List.exists_cons_of_ne_nil hk.1
    simpa using hk.2 c (by simp)
  refine ⟨?_, hhead, ?_⟩
  · apply eff_id
    intro x hx
    rw [List.mem_singleton] at hx
    subst hx
    refine ⟨?_, kw ++ gap ++ v.dropLast, v.getLast hv.1, ?_, hv.2 _ (List.getLast_mem hv.1)⟩
    · rw [List.append_assoc, rc_gap ((noComment_iff _).1 hkc) hg hne, (noComment_iff _).1 hvc]
    · rw [List.append_assoc (kw ++ gap), List.dropLast_append_getLast]
  · rw [addEff, hhead]
    simp only [Bool.false_eq_true, if_false, parseChunk_nil, bind, Except.bind, addEff]
    exact hread

theorem splitWs_two {kw gap v : Str} (hk : isWord kw) (hg : allWs gap) (hne : gap ≠ []) (hv : isWord v) :
    splitWs (kw ++ gap ++ v) = [kw, v] := by
  rw [splitWs_cons_gap hk hg hne, splitWs_word hv]

/-- The lines of a declared account are read as that account. -/
theorem addEff_account (env : Env) (inc : Ledger M × World → Str → Res (Ledger M × World)) (l : Ledger M) (w : World)
    (gap name : Str) (ds : List (MeantDecl M)) (hg : allWs gap) (hgn : gap ≠ []) (hgl : noNl gap) (hn : isWord name)
    (hnc : NoComment name) (hok : ∀ x ∈ ds, x.1.Ok env l.dateFormat l.decimal x.2.1 x.2.2 ∧ x.1.Indented)
    (huniq : ∀ k, ((ofKind k ds).map (·.1.name)).Nodup) :
    eff ((s%"account" ++ gap ++ name) :: ds.flatMap (·.1.lines)) =
      (s%"account" ++ gap ++ name) :: ds.flatMap (·.1.lines) ∧
    addEff env inc ((s%"account" ++ gap ++ name) :: ds.flatMap (·.1.lines)) (l, w) [] =
      .ok ({ l with accounts := mapInsert l.accounts name (declaredAccount name ds) }, w) := by
  have hw : isWord s%"account" ∧ NoComment s%"account" := by decide
  have heff : eff ((s%"account" ++ gap ++ name) :: ds.flatMap (·.1.lines)) =
      (s%"account" ++ gap ++ name) :: ds.flatMap (·.1.lines) := by
    apply eff_id
    intro x hx
    rcases List.mem_cons.1 hx with rfl | hx
    · refine ⟨?_, s%"account" ++ gap ++ name.dropLast, name.getLast hn.1, ?_, hn.2 _ (List.getLast_mem hn.1)⟩
      · rw [List.append_assoc, rc_gap ((noComment_iff _).1 hw.2) hg hgn, (noComment_iff _).1 hnc]
      · rw [List.append_assoc (s%"account" ++ gap), List.dropLast_append_getLast]
    · obtain ⟨y, hy, hm⟩ := List.mem_flatMap.1 hx
      exact ⟨(decl_rc (hok y hy).1 (hok y hy).2 x hm).1,
        (decl_lines (hok y hy).1 x (List.mem_cons_of_mem _ hm)).2⟩
  refine ⟨heff, ?_⟩
  have hhead : (s%"account" ++ gap ++ name).head?.any isWs = false := by simp [isWs]
  rw [addEff, hhead]
  simp only [Bool.false_eq_true, if_false, parseChunk_nil, bind, Except.bind]
  rw [addEff_indented env inc _ (by
    intro x hx
    obtain ⟨y, hy, hm⟩ := List.mem_flatMap.1 hx
    exact (decl_rc (hok y hy).1 (hok y hy).2 x hm).2)]
  have hjoin : ∀ (x : Str) (ls : List Str), x ++ (ls.map fun l => '\n' :: l).flatten = joinWith ['\n'] (x :: ls) := by
    intro x ls
    induction ls generalizing x with
    | nil => simp [joinWith]
    | cons y ls ih =>
      rw [joinWith_cons_nl x (by simp), ← ih]
      simp
  rw [hjoin]
  have hr := account_read env l.dateFormat s%"account" gap name l.decimal ds hw ⟨hg, hgn, hgl⟩ ⟨hn, hnc⟩
    (fun x hx => (hok x hx).1) huniq
  have hsplit : ∃ ts, splitWs (joinWith ['\n'] ((s%"account" ++ gap ++ name) :: ds.flatMap (·.1.lines))) =
      s%"account" :: ts := by
    rw [← hjoin, List.append_assoc, List.append_assoc, ← List.append_assoc, splitWs_cons_gap hw.1 hg hgn]
    exact ⟨_, rfl⟩
  obtain ⟨ts, hts⟩ := hsplit
  generalize joinWith ['\n'] ((s%"account" ++ gap ++ name) :: ds.flatMap (·.1.lines)) = c at hr hts
  unfold Ledger.parseChunk
  split
  · rename_i hc; rw [List.isEmpty_iff.1 hc] at hts; cases hts
  · rw [hts]
    simp only [if_true]
    unfold Ledger.parseAccount
    rw [hr]
    rfl

theorem addEff_journal (env : Env) (w : World) (st st' : Ledger M × APath) (ls : List Str)
    (h : Journal env w.file st ls st') (hdec : st.1.decimal = '.') :
    st'.1.decimal = '.' ∧ Begins (eff ls) ∧ ∃ k, ∀ fuel, k ≤ fuel →
      addEff env (Ledger.addFromFile env fuel) (eff ls) (st.1, { w with cwd := st.2 }) [] =
        .ok (st'.1, { w with cwd := st'.2 }) := by
  induction h with
  | done st => exact ⟨hdec, .inl rfl, 0, fun _ _ => by simp [eff, addEff, parseChunk_nil]⟩
  | empty st st' line ls he _ ih => rw [eff_empty he]; exact ih hdec
  | account l cwd gap name ds ls st' h1 h2 h3 h4 h5 h6 h7 _ ih =>
    obtain ⟨i0, i1, k, i2⟩ := ih hdec
    obtain ⟨a1, _⟩ := addEff_account env (Ledger.addFromFile env 0) l w gap name ds h1 h2 h3 h4 h5 h6 h7
    rw [← List.cons_append, eff_append, a1]
    refine ⟨i0, .inr ⟨_, _, rfl, by simp [isWs]⟩, k, fun fuel hf => ?_⟩
    obtain ⟨_, a2⟩ := addEff_account env (Ledger.addFromFile env fuel) l { w with cwd := cwd } gap name ds h1 h2 h3 h4
      h5 h6 h7
    rw [addEff_item env _ _ _ _ _ i1 a2]
    exact i2 fuel hf
  | currency l cwd gap v ls st' h1 h2 h3 h4 _ ih =>
    obtain ⟨i0, i1, k, i2⟩ := ih hdec
    have key := fun fuel => addEff_directive env (Ledger.addFromFile env fuel) (l, { w with cwd := cwd })
      ({ l with currency := v }, { w with cwd := cwd }) s%"currency" gap v (by decide) (by decide) h1 h2 h3 h4 (by
        unfold Ledger.parseChunk
        rw [splitWs_two (by decide) h1 h2 h3]
        rfl)
    rw [← List.singleton_append, eff_append, (key 0).1]
    refine ⟨i0, .inr ⟨_, _, rfl, (key 0).2.1⟩, k, fun fuel hf => ?_⟩
    rw [addEff_item env _ _ _ _ _ i1 (key fuel).2.2]
    exact i2 fuel hf
  | dateFormat l cwd gap v ls st' h1 h2 h3 h4 _ ih =>
    obtain ⟨i0, i1, k, i2⟩ := ih hdec
    have key := fun fuel => addEff_directive env (Ledger.addFromFile env fuel) (l, { w with cwd := cwd })
      ({ l with dateFormat := v }, { w with cwd := cwd }) s%"date_format" gap v (by decide) (by decide) h1 h2 h3 h4 (by
        unfold Ledger.parseChunk
        rw [splitWs_two (by decide) h1 h2 h3]
        rfl)
    rw [← List.singleton_append, eff_append, (key 0).1]
    refine ⟨i0, .inr ⟨_, _, rfl, (key 0).2.1⟩, k, fun fuel hf => ?_⟩
    rw [addEff_item env _ _ _ _ _ i1 (key fuel).2.2]
    exact i2 fuel hf
  | incl l cwd gap v t ls st1 st' h1 h2 h3 h4 h5 h6 _ _ ih1 ih2 =>
    obtain ⟨j0, _, k1, j2⟩ := ih1 hdec
    obtain ⟨i0, i1, k2, i2⟩ := ih2 j0
    have key : ∀ fuel, k1 < fuel → _ := fun fuel hf => addEff_directive env (Ledger.addFromFile env fuel)
      (l, { w with cwd := cwd }) (st1.1, { w with cwd := st1.2 }) s%"include" gap v (by decide) (by decide) h1 h2 h3 h4
      (by
        unfold Ledger.parseChunk
        rw [splitWs_two (by decide) h1 h2 h3]
        show Ledger.addFromFile env fuel (l, { w with cwd := cwd }) v = _
        cases fuel with
        | zero => omega
        | succ f =>
          have hr : ({ w with cwd := cwd } : World).read v = some t := by
            unfold World.read; rw [if_pos h5]; exact h6
          rw [Ledger.addFromFile]
          simp only [hr]
          rw [addLinesFrom_eff]
          exact j2 f (by omega))
    rw [← List.singleton_append, eff_append, (key (k1 + 1) (by omega)).1]
    refine ⟨i0, .inr ⟨_, _, rfl, (key (k1 + 1) (by omega)).2.1⟩, max (k1 + 1) k2, fun fuel hf => ?_⟩
    rw [addEff_item env _ _ _ _ _ i1 (key fuel (by omega)).2.2]
    exact i2 fuel (by omega)
  | entry l l' cwd e d text ls st' h1 h2 h3 h4 h5 h6 _ ih =>
    obtain ⟨_, _, rfl, _⟩ := addEntry_ok _ _ _ _ h6
    obtain ⟨i0, i1, k, i2⟩ := ih hdec
    have key : ∀ fuel, _ := fun fuel => addEff_written env (Ledger.addFromFile env fuel) l { w with cwd := cwd } d e h1
      h2 h3 h4 hdec
    rw [eff_append]
    obtain ⟨text', t1, ⟨x, xs, t2, t3⟩, _⟩ := key 0
    rw [h5] at t1
    cases t1
    refine ⟨i0, .inr ⟨x, xs ++ eff ls, by rw [t2]; rfl, t3⟩, k, fun fuel hf => ?_⟩
    obtain ⟨text', t1, _, t4⟩ := key fuel
    rw [h5] at t1
    cases t1
    rw [h6] at t4
    rw [addEff_item env _ _ _ _ _ i1 t4]
    exact i2 fuel hf

/-- C109. A journal whose lines are written so (declarations of accounts and envelopes, directives, entries as
silverfox writes them, empty lines and comments, and included files likewise) loads, and gives exactly the accounts
and entries that are written. -/
theorem C109_written_journal_is_read (env : Env) (w : World) (path text : Str) (l : Ledger M) (cwd : APath)
    (hp : endsInName path = true) (hf : w.file (resolve w.cwd path) = some text)
    (h : Journal env w.file (Ledger.new path, (resolve w.cwd path).dropLast) (lines text) (l, cwd)) :
    ∃ k, ∀ fuel, k ≤ fuel → Ledger.fromFile env fuel w path = .ok (l, { w with cwd := cwd }) := by
  obtain ⟨_, _, k, hk⟩ := addEff_journal env w _ _ _ h rfl
  refine ⟨k + 1, fun fuel hfuel => ?_⟩
  cases fuel with
  | zero => omega
  | succ f =>
    have hr : w.read path = some text := by unfold World.read; rw [if_pos hp]; exact hf
    unfold Ledger.fromFile
    rw [Ledger.addFromFile]
    simp only [hr]
    rw [addLinesFrom_eff]
    exact hk f (by omega)

/-- C109: the account of the declaration has the written name, no money and exactly the written envelopes. -/
theorem C109_declared_account (name : Str) (ds : List (MeantDecl M)) :
    (declaredAccount name ds).name = name ∧ (declaredAccount name ds).real = [] ∧
    List.Forall₂ (IsWritten name) (ofKind .expense ds) (declaredAccount name ds).expenses ∧
    List.Forall₂ (IsWritten name) (ofKind .goal ds) (declaredAccount name ds).goals := by
  refine ⟨rfl, rfl, ?_, ?_⟩
  · exact List.forall₂_map_right_iff.2 (List.forall₂_same.2 fun x _ => isWritten name x)
  · exact List.forall₂_map_right_iff.2 (List.forall₂_same.2 fun x _ => isWritten name x)

/-! ### A journal -/

/-- An entry to write. -/
def smallShop : Entry Rat :=
  ⟨exDay, .cleared, s%"Weekly shop", some s%"Corner store", none,
    [.classic ⟨s%"expenses:food", some ⟨5, some s%"$"⟩, none, none⟩, .classic ⟨s%"assets:cash", none, none, none⟩]⟩

/-- The declaration of an envelope. -/
def rentDecl : MeantDecl Rat :=
  (⟨s%"  ", .expense, s%" ", s%"rent", .due s%"every 5th", none, [(s%"   ", [], .amount s%"$5" ⟨5, some s%"$"⟩)]⟩,
    .monthly 5, none)

/-- The text of the entry. -/
def shopText : Str := s%"2024/01/05 ~ Weekly shop [Corner store]\n    expenses:food                                      $ 5\n    assets:cash                                        \n"

/-- Two files. -/
def writtenWorld : World := disk [
  ("j", "; all of it\ninclude k\n\naccount expenses:food\n2024/01/05 ~ Weekly shop [Corner store]\n    expenses:food                                      $ 5\n    assets:cash                                        \n"),
  ("k", "account assets:cash\n  expense rent due every 5th\n   amount $5\n")]

theorem rentDecl_ok : rentDecl.1.Ok (stdEnv exDay) s%"%Y/%m/%d" '.' rentDecl.2.1 rentDecl.2.2 := by
  refine ⟨by decide, by decide, ⟨by decide, by decide, by decide, by decide, by decide⟩, ?_, .none, ?_⟩
  · exact .due _ _ (.monthly s%"5th" 5 ⟨by decide, s%"th", by decide, by decide, by decide⟩) (by decide)
  · intro p hp
    simp only [rentDecl, List.mem_cons, List.not_mem_nil, or_false] at hp
    subst hp
    exact ⟨by decide, by decide, by decide, by decide, by decide, by decide, ⟨_, _, rfl, by decide⟩,
      ⟨s%"$", '5', rfl, by decide⟩, by show Amount.parse s%"$5" '.' = .ok (⟨5, some s%"$"⟩ : Amount Rat); decide +kernel⟩

theorem smallShop_writable : smallShop.Writable (stdEnv exDay) s%"%Y/%m/%d" s%"2024/01/05" where
  date := by decide +kernel
  dateWord := ⟨⟨by decide, by decide⟩, by decide⟩
  dateBack := by decide +kernel
  desc := ⟨⟨[s%"Weekly", s%"shop"], by decide, rfl⟩, by decide, by decide⟩
  payee := by rintro p ⟨⟩; exact ⟨⟨[s%"Corner", s%"store"], by decide, rfl⟩, by decide⟩
  comment := by rintro c ⟨⟩
  postings := by
    intro p hp
    simp only [smallShop, List.mem_cons, List.not_mem_nil, or_false] at hp
    rcases hp with rfl | rfl
    · refine ⟨⟨⟨by decide, by decide⟩, by decide⟩, by decide, ?_, by simp, by simp⟩
      rintro a ⟨⟩
      exact C11_printable_exact _ (by rintro s ⟨⟩; decide)
    · exact ⟨⟨⟨by decide, by decide⟩, by decide⟩, by decide, by simp, by simp, by simp⟩

/-- The two files are a journal in this sense. -/
example : ∃ (l : Ledger Rat) (cwd : APath) (t : Str), writtenWorld.file (resolve writtenWorld.cwd s%"j") = some t ∧
    Journal (stdEnv exDay) writtenWorld.file (Ledger.new s%"j", (resolve writtenWorld.cwd s%"j").dropLast) (lines t)
      (l, cwd) := by
  have hadd : ∃ l', ({ (Ledger.new s%"j" : Ledger Rat) with accounts :=
      [(s%"assets:cash", declaredAccount s%"assets:cash" [rentDecl]), (s%"expenses:food", declaredAccount s%"expenses:food" [])]
      } : Ledger Rat).addEntry (stdEnv exDay) smallShop.rounded = .ok l' := by
    cases h : ({ (Ledger.new s%"j" : Ledger Rat) with accounts :=
      [(s%"assets:cash", declaredAccount s%"assets:cash" [rentDecl]), (s%"expenses:food", declaredAccount s%"expenses:food" [])]
      } : Ledger Rat).addEntry (stdEnv exDay) smallShop.rounded with
    | ok l' => exact ⟨l', rfl⟩
    | error f =>
      exfalso
      have : (({ (Ledger.new s%"j" : Ledger Rat) with accounts :=
        [(s%"assets:cash", declaredAccount s%"assets:cash" [rentDecl]), (s%"expenses:food", declaredAccount s%"expenses:food" [])]
        } : Ledger Rat).addEntry (stdEnv exDay) smallShop.rounded).isOk = true := by decide +kernel
      rw [h] at this
      cases this
  obtain ⟨l', hl'⟩ := hadd
  refine ⟨l', [s%"h"], _, rfl, ?_⟩
  have hl : lines ("; all of it\ninclude k\n\naccount expenses:food\n2024/01/05 ~ Weekly shop [Corner store]\n    expenses:food                                      $ 5\n    assets:cash                                        \n".toList) =
      s%"; all of it" :: (s%"include" ++ s%" " ++ s%"k") :: [] :: (s%"account" ++ s%" " ++ s%"expenses:food") ::
        (([] : List (MeantDecl Rat)).flatMap (·.1.lines) ++ (lines shopText ++ [])) := by decide +kernel
  show Journal _ _ _ (lines ("; all of it\ninclude k\n\naccount expenses:food\n2024/01/05 ~ Weekly shop [Corner store]\n    expenses:food                                      $ 5\n    assets:cash                                        \n".toList)) _
  rw [hl]
  refine .empty _ _ _ _ (.inr (.inl rfl)) ?_
  refine .incl _ _ s%" " s%"k" _ _ ({ (Ledger.new s%"j" : Ledger Rat) with accounts :=
      [(s%"assets:cash", declaredAccount s%"assets:cash" [rentDecl])] }, [s%"h"]) _ (by decide) (by decide) (by decide)
    (by decide) (by decide) rfl ?_ ?_
  · have hk : lines ("account assets:cash\n  expense rent due every 5th\n   amount $5\n".toList) =
        (s%"account" ++ s%" " ++ s%"assets:cash") :: ([rentDecl].flatMap (·.1.lines) ++ []) := by decide +kernel
    show Journal _ _ _ (lines ("account assets:cash\n  expense rent due every 5th\n   amount $5\n".toList)) _
    rw [hk]
    refine .account _ _ s%" " s%"assets:cash" [rentDecl] [] _ (by decide) (by decide) (by decide) (by decide) (by decide)
      ?_ (fun k => by cases k <;> decide) (.done _)
    intro x hx
    rw [List.mem_singleton] at hx
    subst hx
    exact ⟨rentDecl_ok, by decide, by intro p hp; simp only [rentDecl, List.mem_singleton] at hp; subst hp; decide⟩
  · refine .empty _ _ _ _ (.inl (by decide)) ?_
    refine .account _ _ s%" " s%"expenses:food" [] _ _ (by decide) (by decide) (by decide) (by decide) (by decide)
      (by intro x hx; cases hx) (fun k => by cases k <;> decide) ?_
    refine .entry _ l' _ smallShop s%"2024/01/05" shopText [] _ smallShop_writable (by decide) (by decide +kernel) ?_
      (by decide +kernel) hl' (.done _)
    decide +kernel

end Silverfox
