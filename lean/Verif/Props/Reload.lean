import Verif.Props.Entries
import Verif.Props.Include
import Verif.Proofs.Scan
import Verif.Proofs.Dates

/-
C61: what is appended to the journal reads back.
-/

namespace Silverfox

set_option linter.unusedSectionVars false
variable {M : Type} [Mag M]

/-! ### The effective lines of a written entry -/

theorem rc_trimEnd {s : Str} (h : rc s = s) : rc (trimEnd s) = trimEnd s := by
  rw [← noComment_iff] at h ⊢
  obtain ⟨b, _, e, _⟩ := trimEnd_spec s
  refine ⟨fun hm => h.1 (by rw [e]; simp [hm]), fun hi => h.2 ?_⟩
  exact hi.trans ⟨[], b, e.symm⟩

theorem splitWs_rc_trimEnd (l : Str) : splitWs (rc (trimEnd l)) = splitWs (rc l) := by
  obtain ⟨b, hb, h, _⟩ := trimEnd_spec l
  conv => rhs; rw [h]
  rw [splitWs_rc_ws _ hb]

theorem eff_line {l : Str} (h : noNl l) : eff (lines l) = eff [l] := by
  rw [eff_lines, segs, splitOn_none h]

theorem eff_postings (ps : List (Posting M)) (h : ∀ p ∈ ps, p.Writable) :
    eff (lines (ps.map fun p => s%"    " ++ p.display ++ ['\n']).flatten) =
      ps.map fun p => trimEnd (s%"    " ++ p.display) := by
  induction ps with
  | nil => rfl
  | cons p ps ih =>
    have hp := h p (by simp)
    simp only [List.map_cons, List.flatten_cons]
    rw [show ∀ a b : Str, a ++ ['\n'] ++ b = a ++ '\n' :: b from fun a b => by simp, eff_lines_append,
      ih fun q hq => h q (by simp [hq]), eff_line (noNl_append.2 ⟨by decide, Posting.display_noNl p hp⟩)]
    have hrc : rc (s%"    " ++ p.display) = s%"    " ++ p.display := by
      show rc (' ' :: ' ' :: ' ' :: ' ' :: p.display) = _
      rw [rc_space_cons, rc_space_cons, rc_space_cons, rc_space_cons, Posting.display_clean p hp]
      rfl
    have hne : trimEnd (s%"    " ++ p.display) ≠ [] := fun he =>
      Posting.display_ink p hp (allWs_append.1 (trimEnd_eq_nil.1 he)).2
    have : eff [s%"    " ++ p.display] = [trimEnd (s%"    " ++ p.display)] := by
      unfold eff
      simp only [List.map_cons, List.map_nil, removeComments_eq_rc, rc_trimEnd hrc]
      rw [List.filter_cons_of_pos]
      · rfl
      · simpa using hne
    rw [this]; rfl

theorem addEff_indented (env : Env) (inc : Ledger M × World → Str → Res (Ledger M × World)) (ls : List Str)
    (h : ∀ l ∈ ls, l.head?.any isWs = true) (st : Ledger M × World) (c : Str) :
    addEff env inc ls st c = Ledger.parseChunk env inc st (c ++ (ls.map fun l => '\n' :: l).flatten) := by
  induction ls generalizing c with
  | nil => simp [addEff]
  | cons l ls ih =>
    rw [addEff, if_pos (h l (by simp)), ih fun x hx => h x (by simp [hx])]
    simp

theorem inkLines_chunk (ls : List Str) (h : ∀ l ∈ ls, noNl l ∧ ¬ allWs l) {c : Str} (hc : noNl c) (hb : ¬ allWs c) :
    inkLines (c ++ (ls.map fun l => '\n' :: l).flatten) = trim c :: ls.map trim := by
  have key : ∀ (ls : List Str) (c : Str), (∀ l ∈ ls, noNl l ∧ ¬ allWs l) →
      inkLines (c ++ (ls.map fun l => '\n' :: l).flatten) = inkLines c ++ ls.map trim := by
    intro ls
    induction ls with
    | nil => intro c _; simp
    | cons l ls ih =>
      intro c hl
      rw [List.map_cons, List.flatten_cons, List.cons_append, inkLines_nl, ih _ fun x hx => hl x (by simp [hx]),
        inkLines_line (hl l (by simp)).1 (hl l (by simp)).2]
      rfl
  rw [key ls c h, inkLines_line hc hb]
  rfl

/-- The words that begin something else than an entry. -/
def keywords : List Str := [s%"account", s%"currency", s%"date_format", s%"include"]

theorem parseChunk_entry (env : Env) (inc : Ledger M × World → Str → Res (Ledger M × World)) (l : Ledger M) (w : World)
    (c d : Str) (ts : List Str) (h : splitWs c = d :: ts) (hd : d ∉ keywords) :
    Ledger.parseChunk env inc (l, w) c = (l.parseEntry env c).map fun l' => (l', w) := by
  simp only [keywords, List.mem_cons, List.not_mem_nil, or_false, not_or] at hd
  obtain ⟨h1, h2, h3, h4⟩ := hd
  unfold Ledger.parseChunk
  split
  · rename_i hc; rw [List.isEmpty_iff.1 hc] at h; cases h
  · rw [h]
    simp only [if_neg h1, if_neg h2, if_neg h3, if_neg h4, bind, Except.bind, pure, Except.pure]
    cases l.parseEntry env c <;> rfl

/-- The lines written for an entry add that entry, rounded. -/
theorem addEff_written (env : Env) (inc : Ledger M × World → Str → Res (Ledger M × World)) (l : Ledger M) (w : World)
    (d : Str) (e : Entry M) (hw : e.Writable env l.dateFormat d) (hd : d ∉ keywords) (hv : e.validate = .ok ())
    (hacc : ∀ p ∈ e.postings, p.isEnvelope = false → p.account ∈ l.accountNames) (hdec : l.decimal = '.') :
    ∃ text, e.asParsable env l.dateFormat = .ok text ∧
      (∃ x xs, eff (lines text) = x :: xs ∧ x.head?.any isWs = false) ∧
      addEff env inc (eff (lines text)) (l, w) [] = (l.addEntry env e.rounded).map fun l' => (l', w) := by
  obtain ⟨body, com, ht, hn, hc, hr, hs, ⟨x, hx⟩, ts, hwords⟩ := Entry.written hw
  refine ⟨_, ht, ?_⟩
  have hrc : splitWs (rc (trimEnd (body ++ com))) = splitWs body := by
    rw [splitWs_rc_trimEnd, splitWs_rc_remark hc hr]
  have hne : rc (trimEnd (body ++ com)) ≠ [] := by
    intro he; rw [he, hwords] at hrc; cases hrc
  have hblank : ¬ allWs (rc (trimEnd (body ++ com))) := by
    intro ha; rw [splitWs_allWs ha, hwords] at hrc; cases hrc
  have hlines : eff (lines (body ++ com ++ '\n' :: postingsText e)) =
      rc (trimEnd (body ++ com)) :: e.postings.map fun p => trimEnd (s%"    " ++ p.display) := by
    rw [eff_lines_append, eff_line hn, postingsText, eff_postings _ hw.postings]
    unfold eff
    simp only [List.map_cons, List.map_nil, removeComments_eq_rc]
    rw [List.filter_cons_of_pos]
    · rfl
    · simpa using hne
  -- the first character of the header is the first of the date
  have hhead : (rc (trimEnd (body ++ com))).head?.any isWs = false := by
    obtain ⟨r1, h1, _⟩ := rc_append_rest (trimEnd (body ++ com))
    obtain ⟨b, _, h2, _⟩ := trimEnd_spec (body ++ com)
    obtain ⟨c, d', hcd⟩ := List.exists_cons_of_ne_nil hw.dateWord.1.1
    obtain ⟨y, ys, hy⟩ := List.exists_cons_of_ne_nil hne
    have : y = c := by
      rw [hy] at h1
      rw [h1, hx, hcd] at h2
      simp only [List.cons_append] at h2
      exact (List.cons.inj h2).1.symm
    rw [hy, this]
    simpa using hw.dateWord.1.2 c (by rw [hcd]; simp)
  refine ⟨⟨_, _, hlines, hhead⟩, ?_⟩
  rw [hlines, addEff, if_neg (by rw [hhead]; simp), parseChunk_nil]
  show addEff env inc _ (l, w) _ = _
  have hind : ∀ x ∈ e.postings.map (fun p => trimEnd (s%"    " ++ p.display)), noNl x ∧ ¬ allWs x ∧
      x.head?.any isWs = true := by
    intro x hx
    obtain ⟨p, hp, rfl⟩ := List.mem_map.1 hx
    have hp := hw.postings p hp
    have hi := Posting.display_ink p hp
    rw [trimEnd_ink _ hi]
    refine ⟨noNl_append.2 ⟨by decide, ?_⟩, ?_, rfl⟩
    · obtain ⟨b, _, h2, _⟩ := trimEnd_spec p.display
      have := Posting.display_noNl p hp
      rw [h2] at this
      exact (noNl_append.1 this).1
    · intro ha
      have := (allWs_append.1 ha).2
      have h0 : trimEnd (trimEnd p.display) = [] := trimEnd_allWs this
      apply hi
      obtain ⟨b, hb, h2, _⟩ := trimEnd_spec p.display
      rw [h2]
      exact allWs_append.2 ⟨this, hb⟩
  rw [addEff_indented _ _ _ fun x hx => (hind x hx).2.2]
  have hnH : noNl (rc (trimEnd (body ++ com))) := by
    obtain ⟨r1, h1, _⟩ := rc_append_rest (trimEnd (body ++ com))
    obtain ⟨b, _, h2, _⟩ := trimEnd_spec (body ++ com)
    rw [h2] at hn
    have := (noNl_append.1 hn).1
    rw [h1] at this
    exact (noNl_append.1 this).1
  have hsplit : ∀ (ls : List Str), ∃ ts', splitWs (rc (trimEnd (body ++ com)) ++ (ls.map fun l => '\n' :: l).flatten) =
      d :: ts' := by
    intro ls
    cases ls with
    | nil => exact ⟨ts, by simp [hrc, hwords]⟩
    | cons y ys =>
      refine ⟨ts ++ splitWs (y ++ (ys.map fun l => '\n' :: l).flatten), ?_⟩
      rw [List.map_cons, List.flatten_cons, List.cons_append, splitWs_append_ws _ (by decide), hrc, hwords]
      rfl
  obtain ⟨ts', hsp⟩ := hsplit (e.postings.map fun p => trimEnd (s%"    " ++ p.display))
  rw [parseChunk_entry env inc l w _ d ts' hsp hd]
  congr 1
  unfold Ledger.parseEntry
  have hparse : Entry.parse env (rc (trimEnd (body ++ com)) ++
      ((e.postings.map fun p => trimEnd (s%"    " ++ p.display)).map fun l => '\n' :: l).flatten)
      l.dateFormat l.decimal l.accountNames = .ok e.rounded := by
    rw [Entry.parse_ink, inkLines_chunk _ (fun x hx => ⟨(hind x hx).1, (hind x hx).2.1⟩) hnH hblank]
    simp only
    have hps : Entry.parsePostings l.decimal l.accountNames
        ((e.postings.map fun p => trimEnd (s%"    " ++ p.display)).map trim) = .ok (e.postings.map Posting.rounded) := by
      rw [List.map_map, hdec, ← parsePostings_written e.postings hw.postings l.accountNames hacc]
      congr 1
      apply List.map_congr_left
      intro p _
      exact trim_trimEnd _
    obtain ⟨e0, h1, h2⟩ := (parseHeader_iff env l.dateFormat (trim (rc (trimEnd (body ++ com)))) body
      (by rw [splitWs_rc_trim, rc_idem, hrc]) e.rounded).2 hs
    rw [h1, hps]
    simp only [bind, Except.bind, pure, Except.pure]
    have : ({ e0 with postings := e.postings.map Posting.rounded } : Entry M) = e.rounded := h2
    rw [this, Entry.validate_rounded, hv]
  rw [hparse]
  rfl

theorem addEff_append (env : Env) (inc : Ledger M × World → Str → Res (Ledger M × World)) (a : List Str) (x : Str)
    (xs : List Str) (h : x.head?.any isWs = false) (st : Ledger M × World) (c : Str) :
    addEff env inc (a ++ x :: xs) st c = (addEff env inc a st c >>= fun st => addEff env inc (x :: xs) st []) := by
  induction a generalizing st c with
  | nil =>
    simp only [List.nil_append, addEff, h, Bool.false_eq_true, if_false, parseChunk_nil]
    rfl
  | cons l a ih =>
    simp only [List.cons_append]
    rw [addEff, addEff]
    split
    · exact ih st _
    · cases Ledger.parseChunk env inc st c with
      | error f => rfl
      | ok st1 => exact ih _ _

/-! ### Appending, then loading -/

/-- After an entry was appended to a journal, loading it again gives what the journal was, plus the entry as
rounded to 8 decimals. -/
theorem append_reload (env : Env) (fuel : Nat) (w w1 w' : World) (path : Str) (l l' : Ledger M) (e : Entry M) (d : Str)
    (hload : Ledger.fromFile env fuel w path = .ok (l, w1)) (hsame : resolve w1.cwd path = resolve w.cwd path)
    (hw : e.Writable env l.dateFormat d) (hd : d ∉ keywords) (hv : e.validate = .ok ())
    (hacc : ∀ p ∈ e.postings, p.isEnvelope = false → p.account ∈ l.accountNames)
    (happ : l.appendEntry env w1 e = (w', .ok l')) :
    Ledger.fromFile env fuel { w' with cwd := w.cwd } path = (l.addEntry env e.rounded).map fun l'' => (l'', w') := by
  cases fuel with
  | zero => cases hload
  | succ f =>
    obtain ⟨⟨is, hsteps⟩, hfile, hcan⟩ := fromFile_sound env (f + 1) w w1 path l hload
    have hpath : l.filePath = path := hsteps.filePath.1
    have hdec : l.decimal = '.' := hsteps.filePath.2
    simp only [Ledger.fromFile, Ledger.addFromFile] at hload
    cases hs : w.read path with
    | none => rw [hs] at hload; cases hload
    | some s =>
      rw [hs] at hload
      simp only at hload
      have hs' : endsInName path = true ∧ w.file (resolve w.cwd path) = some s := by
        unfold World.read at hs
        split at hs
        · rename_i he; exact ⟨he, hs⟩
        · cases hs
      obtain ⟨text, ht, ⟨x, xs, hx, hxw⟩, hadd⟩ := addEff_written env (Ledger.addFromFile env f) l
        { w1 with file := w'.file } d e hw hd hv hacc hdec
      -- the world after appending
      unfold Ledger.appendEntry at happ
      split at happ
      · cases happ
      · rw [ht] at happ
        simp only at happ
        cases hap : w1.append l.filePath ('\n' :: text) with
        | none => rw [hap] at happ; cases happ
        | some w2 =>
          rw [hap] at happ
          obtain ⟨rfl, hl'⟩ := Prod.mk.inj happ
          have hw2 : w2 = w1.write (resolve w.cwd path) (s ++ '\n' :: text) := by
            unfold World.append at hap
            simp only [hpath, hsame, hfile, hs'.2] at hap
            split at hap
            · cases hap; rfl
            · cases hap
          have hcwd : w2 = { w1 with file := w2.file } := by rw [hw2]; rfl
          have hother : ∀ p, p ≠ resolve w.cwd path → w2.file p = w.file p := by
            intro p hp
            rw [hw2]
            show (if p = _ then _ else w1.file p) = _
            rw [if_neg hp, hfile]
          have hself : w2.file (resolve w.cwd path) = some (s ++ '\n' :: text) := by
            rw [hw2]; show (if _ then _ else _) = _; rw [if_pos rfl]
          have hagain := fromFile_lines_again env f w path s l w1 hs'.2 hload w2.file hother
          have hworld : ({ w2 with cwd := w.cwd } : World).cdParent path = (w.cdParent path).withFiles w2.file := by
            rw [hw2]
            show (⟨_, w1.canAppend, _⟩ : World) = ⟨_, w.canAppend, _⟩
            rw [show w1.canAppend = w.canAppend from hcan]
            rfl
          have hread : ({ w2 with cwd := w.cwd } : World).read path = some (s ++ '\n' :: text) := by
            unfold World.read
            rw [if_pos hs'.1]
            exact hself
          simp only [Ledger.fromFile, Ledger.addFromFile, hread]
          rw [hworld, addLinesFrom_eff, eff_lines_append, hx, addEff_append _ _ _ _ _ hxw, ← addLinesFrom_eff, hagain]
          show addEff env _ (x :: xs) (l, w1.withFiles w2.file) [] = _
          rw [← hx]
          refine hadd.trans ?_
          rw [← hcwd]

/-! ### Names -/

theorem splitWs_infix (s : Str) : (∀ t ∈ splitWs s, t <:+: s) ∧
    ∀ t ts, startsInk s = true → splitWs s = t :: ts → t <+: s := by
  induction s with
  | nil => exact ⟨(fun t ht => by cases ht), (fun t ts _ h => by cases h)⟩
  | cons c s ih =>
    simp only [splitWs]
    cases hc : isWs c with
    | true =>
      refine ⟨fun t ht => (ih.1 t ht).trans (List.suffix_cons c s).isInfix, fun t ts h _ => ?_⟩
      simp [startsInk, hc] at h
    | false =>
      simp only [Bool.false_eq_true, if_false]
      split
      · rename_i hi
        cases hs : splitWs s with
        | nil =>
          refine ⟨fun t ht => ?_, fun t ts _ h => ?_⟩
          · simp only [consHead, List.mem_singleton] at ht
            subst ht
            exact (List.cons_prefix_cons.2 ⟨rfl, List.nil_prefix⟩).isInfix
          · cases h; exact List.cons_prefix_cons.2 ⟨rfl, List.nil_prefix⟩
        | cons u us =>
          have hu : c :: u <+: c :: s := List.cons_prefix_cons.2 ⟨rfl, ih.2 u us hi hs⟩
          refine ⟨fun t ht => ?_, fun t ts _ h => ?_⟩
          · simp only [consHead, List.mem_cons] at ht
            rcases ht with rfl | ht
            · exact hu.isInfix
            · exact (ih.1 t (by rw [hs]; simp [ht])).trans (List.suffix_cons c s).isInfix
          · cases h; exact hu
      · have h1 : [c] <+: c :: s := List.cons_prefix_cons.2 ⟨rfl, List.nil_prefix⟩
        refine ⟨fun t ht => ?_, fun t ts _ h => ?_⟩
        · rcases List.mem_cons.1 ht with rfl | ht
          · exact h1.isInfix
          · exact (ih.1 t ht).trans (List.suffix_cons c s).isInfix
        · cases h; exact h1

/-- The words of a line without its comment are names. -/
theorem name_of_words {line t : Str} (h : t ∈ splitWs (rc line)) : Name t := by
  refine ⟨splitWs_isWord _ t h, ?_⟩
  have hi := (splitWs_infix _).1 t h
  have hn := (noComment_iff _).2 (rc_idem line)
  exact ⟨fun hm => hn.1 (hi.subset hm), fun hm => hn.2 (hm.trans hi)⟩

/-- Names of accounts and envelopes. -/
def Account.Named (a : Account M) : Prop := Name a.name ∧ ∀ e ∈ a.envelopes, Name e.name ∧ e.account = a.name

theorem fromHeader_name (env : Env) (l fmt acc : Str) (e : Envelope M)
    (h : Envelope.fromHeader env l fmt acc = .ok e) : Name e.name := by
  unfold Envelope.fromHeader at h
  rw [removeComments_eq_rc] at h
  split at h
  · rename_i t0 t1 ts hs
    simp only [bind, Except.bind, pure, Except.pure] at h
    split at h
    · cases h
    · split at h
      · cases h
      · split at h
        · cases h
        · cases h
          exact name_of_words (line := l) (by rw [hs]; simp)
  · cases h

theorem parsed_envelope_name (env : Env) (c acc : Str) (dec : Char) (fmt : Str) (e : Envelope M)
    (h : Envelope.parse env c acc dec fmt = .ok e) : Name e.name := by
  unfold Envelope.parse at h
  split at h
  · cases h
  · simp only [bind, Except.bind] at h
    split at h
    · cases h
    · rename_i e0 he0
      rw [(Envelope.addBody_keeps _ _ _ _ h).2.2.1]
      exact fromHeader_name _ _ _ _ _ he0

theorem parsed_account_named (env : Env) (dec : Char) (fmt chunk : Str) (a : Account M)
    (h : Account.parse env chunk dec fmt = .ok a) : a.Named := by
  refine Account.parse_induction Account.Named env dec fmt ?_ ?_ chunk a h
  · intro line n hn
    refine ⟨?_, by simp [Account.envelopes]⟩
    unfold Account.parseHeader at hn
    rw [removeComments_eq_rc] at hn
    split at hn
    · rename_i a b hs
      cases hn
      exact name_of_words (line := line) (by rw [hs]; simp)
    · cases hn
  · intro a a' c e he ha hw
    obtain ⟨h1, _, h2⟩ := addEnvelope_keeps a a' e ha
    refine ⟨by rw [h1]; exact hw.1, fun x hx => ?_⟩
    rw [h1]
    rcases (h2 x).1 hx with hx | rfl
    · exact hw.2 x hx
    · exact ⟨parsed_envelope_name _ _ _ _ _ _ he, (parsed_envelope_fresh _ _ _ _ _ _ he).2⟩

theorem processEntry_named (today : Date) (x : Entry M) (a a' : Account M)
    (h : a.processEntry today x = .ok a') (hw : a.Named) : a'.Named := by
  have hn := (processEntry_real today x a a' h).1
  have h3 : List.Forall₂ (fun e e' => e.processEntry today x = .ok e') a.envelopes a'.envelopes :=
    C31_envelopes_independent today a a' x h
  refine ⟨by rw [hn]; exact hw.1, fun e he => ?_⟩
  obtain ⟨e0, he0, hp⟩ := forall₂_mem_right h3 he
  have hf := SameButMoney.fields (processEntry_keeps today e0 e x hp).1
  rw [hf.1, hf.2.1, hn]
  exact hw.2 e0 he0

/-- What else holds of every ledger that was loaded. -/
structure Ledger.Plain (l : Ledger M) : Prop where
  named : ∀ k a, (k, a) ∈ l.accounts → a.Named
  comments : ∀ e ∈ l.entries, e.comment = none

theorem Entry.parse_comment (env : Env) (chunk fmt : Str) (dec : Char) (accs : List Str) (e : Entry M)
    (h : Entry.parse env chunk fmt dec accs = .ok e) : e.comment = none := by
  unfold Entry.parse at h
  simp only at h
  split at h
  · cases h
  · split at h
    · cases h
    · simp only [bind, Except.bind, pure, Except.pure] at h
      split at h
      · cases h
      · rename_i e0 h0
        split at h
        · cases h
        · split at h
          · cases h
          · cases h
            show e0.comment = none
            unfold Entry.parseHeader at h0
            split at h0
            · cases h0
            · split at h0
              · cases h0
              · split at h0
                · cases h0
                · simp only [bind, Except.bind, pure, Except.pure] at h0
                  split at h0
                  · cases h0
                  · split at h0
                    · cases h0
                    · cases h0; rfl

theorem steps_plain (env : Env) (l l' : Ledger M) (is : List (Item M)) (hl : l.Plain)
    (h : Steps env l is l') : l'.Plain := by
  induction h with
  | refl => exact hl
  | tail _ hs ih =>
    cases hs with
    | account chunk a h =>
      refine ⟨fun k b hm => ?_, ih.comments⟩
      rcases mapInsert_mem _ _ _ _ hm with hm | hm
      · cases hm; exact parsed_account_named _ _ _ _ _ h
      · exact ih.named k b hm
    | entry _ chunk e h h' =>
      obtain ⟨accs, h1, rfl, _⟩ := addEntry_ok _ _ _ _ h'
      refine ⟨fun k b hm => ?_, fun x hx => ?_⟩
      · obtain ⟨b0, h2, h3⟩ := (processAll_ok _ _ _ _ h1).2 k b hm
        exact processEntry_named _ _ _ _ h3 (ih.named k b0 h2)
      · have := (stableSort_perm _ _).mem_iff.1 hx
        rcases List.mem_append.1 this with hx | hx
        · exact ih.comments x hx
        · rw [List.mem_singleton.1 hx]; exact Entry.parse_comment _ _ _ _ _ _ h
    | currency => exact ⟨ih.named, ih.comments⟩
    | dateFormat => exact ⟨ih.named, ih.comments⟩

theorem loaded_plain (env : Env) (fuel : Nat) (w w' : World) (path : Str) (l : Ledger M)
    (h : Ledger.fromFile env fuel w path = .ok (l, w')) : l.Plain := by
  obtain ⟨⟨is, hs⟩, _⟩ := fromFile_sound env fuel w w' path l h
  exact steps_plain env _ _ is ⟨by simp [Ledger.new], by simp [Ledger.new]⟩ hs

/-! ### Comments do not count -/

/-- An entry without its comment. -/
def Entry.bare (e : Entry M) : Entry M := { e with comment := none }

theorem inferLoop_bare (v : Envelope M) (e : Entry M) (ps : List (Posting M)) (a b : Amount M) :
    v.inferLoop e.bare ps a b = v.inferLoop e ps a b := by
  induction ps generalizing a b with
  | nil => rfl
  | cons p ps ih =>
    simp only [Envelope.inferLoop, ih]
    rfl

theorem processReal_bare (n : Str) (e : Entry M) (ps : List (Posting M)) (r : Pool M) :
    Account.processReal n e.bare ps r = Account.processReal n e ps r := by
  induction ps generalizing r with
  | nil => rfl
  | cons p ps ih =>
    simp only [Account.processReal, ih]
    rfl

theorem processEntry_bare (today : Date) (e : Entry M) (a : Account M) :
    a.processEntry today e.bare = a.processEntry today e := by
  have h1 : ∀ v : Envelope M, v.processEntry today e.bare = v.processEntry today e := by
    intro v
    unfold Envelope.processEntry Envelope.infer
    simp only [inferLoop_bare]
    rfl
  have h2 : ∀ es : List (Envelope M), Account.processEnvelopes today e.bare es = Account.processEnvelopes today e es := by
    intro es
    induction es with
    | nil => rfl
    | cons v es ih => simp only [Account.processEnvelopes, ih, h1]
  unfold Account.processEntry
  rw [h2, h2, processReal_bare]
  rfl

theorem processAll_bare (today : Date) (e : Entry M) (as : List (Str × Account M)) :
    Ledger.processAll today e.bare as = Ledger.processAll today e as := by
  induction as with
  | nil => rfl
  | cons p as ih =>
    obtain ⟨k, a⟩ := p
    simp only [Ledger.processAll, ih, processEntry_bare]

theorem stableSort_map {α β : Type} (lt : α → α → Bool) (lt' : β → β → Bool) (f : α → β)
    (h : ∀ a b, lt' (f a) (f b) = lt a b) (l : List α) : stableSort lt' (l.map f) = (stableSort lt l).map f := by
  have hi : ∀ (a : α) (l : List α), insertBy lt' (f a) (l.map f) = (insertBy lt a l).map f := by
    intro a l
    induction l with
    | nil => rfl
    | cons b l ih =>
      simp only [List.map_cons, insertBy, h, ih]
      split <;> simp
  induction l with
  | nil => rfl
  | cons a l ih => simp only [List.map_cons, stableSort, ih, hi]

theorem addEntry_bare (env : Env) (l l' : Ledger M) (e : Entry M) (hl : l.Plain) (h : l.addEntry env e = .ok l') :
    l.addEntry env e.bare = .ok { l' with entries := l'.entries.map Entry.bare } := by
  obtain ⟨accs, h1, rfl, accs', h2⟩ := addEntry_ok _ _ _ _ h
  unfold Ledger.addEntry
  rw [processAll_bare, processAll_bare, h1, h2]
  simp only [bind, Except.bind, pure, Except.pure]
  rw [← stableSort_map (fun a b => Date.lt a.date b.date) (fun a b => Date.lt a.date b.date) Entry.bare fun _ _ => rfl,
    List.map_append, List.map_cons, List.map_nil]
  congr 4
  rw [List.map_congr_left (g := id), List.map_id]
  intro x hx
  have := hl.comments x hx
  show ({ x with comment := none } : Entry M) = x
  rw [← this]

/-! ### C61 -/

/-- C61. Automatic filling writes an entry that says what was done: loading the extended journal again from the
same directory gives the accounts, envelopes and real values held in memory, and the entries held in memory
without the automatic comment. Conditions: the journal path denotes the same file after loading as before (see
C60), today's date can be written and read in the journal's format, and every fill amount is printable (see C11)
and has no more than 8 decimals. -/
theorem C61_reload_partial (env : Env) (hord : FairOrder env.ord) (fuel : Nat) (w w1 w' : World) (path d : Str)
    (l l' : Ledger M) (hload : Ledger.fromFile env fuel w path = .ok (l, w1))
    (hsame : resolve w1.cwd path = resolve w.cwd path)
    (hdate : env.fmtDate env.today l.dateFormat = some d ∧ env.parseDate d l.dateFormat = some env.today)
    (hd : Name d) (hkw : d ∉ [s%"account", s%"currency", s%"date_format", s%"include"])
    (hamt : ∀ k a qs, (k, a) ∈ l.accounts → a.fillingPostings env.today = .ok qs → ∀ q ∈ qs,
      Mag.eq q.amount.mag (Mag.zero : M) = false → Printable q.amount ∧ round8 q.amount.mag = q.amount.mag)
    (h : l.fillEnvelopes env w1 = (w', .ok l')) :
    Ledger.fromFile env fuel { w' with cwd := w.cwd } path =
      .ok ({ l' with entries := l'.entries.map fun e => { e with comment := none } }, w') := by
  have hplain := loaded_plain env fuel w w1 path l hload
  obtain ⟨_, hfile, hcan⟩ := fromFile_sound env fuel w w1 path l hload
  unfold Ledger.fillEnvelopes at h
  split at h
  · cases h
  · rename_i ps hps
    obtain ⟨_, h2⟩ := fillAll_ok _ _ _ hps
    simp only at h
    split at h
    · cases h
      have : ({ w1 with cwd := w.cwd } : World) = w := by rw [hfile, hcan]
      rw [this, hload]
      congr 2
      show l = { l with entries := l.entries.map Entry.bare }
      rw [List.map_congr_left (g := id), List.map_id]
      intro x hx
      have := hplain.comments x hx
      show ({ x with comment := none } : Entry M) = x
      rw [← this]
    · -- each posting is writable
      have hq : ∀ q ∈ ps.filter (fun p => !Mag.eq p.amount.mag (Mag.zero : M)),
          (Posting.envelope q).Writable ∧ round8 q.amount.mag = q.amount.mag := by
        intro q hq
        rw [List.mem_filter] at hq
        obtain ⟨k, a, qs, h7, h8, h9⟩ := h2 q hq.1
        have hm : (k, a) ∈ l.accounts := (hord _ l.accounts).mem_iff.1 h7
        obtain ⟨h3, h4⟩ := hamt k a qs hm h8 q h9 (by simpa using hq.2)
        have hn := hplain.named k a hm
        have hnames : ∀ (es : List (Envelope M)) (av : Pool M) (qs : List (EnvPosting M)),
            (∀ e ∈ es, e ∈ a.envelopes) → Account.fillLoop env.today es av = .ok qs →
            ∀ q ∈ qs, Name q.account ∧ Name q.envelope := by
          intro es
          induction es with
          | nil => intro av qs _ h q hq; cases h; cases hq
          | cons v es ih =>
            intro av qs hes h q hq
            obtain ⟨p, ps', rfl, h10, h11⟩ := fillLoop_cons env.today v es av qs h
            rcases List.mem_cons.1 hq with rfl | hq
            · obtain ⟨h12, h13, _⟩ := fillingPosting_ok _ _ _ _ h10
              obtain ⟨h14, h15⟩ := hn.2 v (hes v (by simp))
              rw [h12, h13, h15]
              exact ⟨hn.1, h14⟩
            · exact ih _ _ (fun e he => hes e (by simp [he])) h11 q hq
        obtain ⟨h5, h6⟩ := hnames _ _ _ (by simp) h8 q h9
        exact ⟨⟨h5, h6, h3⟩, h4⟩
      generalize hfs : ps.filter (fun p => !Mag.eq p.amount.mag (Mag.zero : M)) = fs at h hq
      have hw : (Ledger.fillEntry env.today fs).Writable env l.dateFormat d := by
        refine ⟨hdate.1, hd, hdate.2, ⟨⟨[s%"move", s%"to", s%"envelopes"], by decide, rfl⟩,
          (by decide : NoComment s%"move to envelopes"), (by decide : '[' ∉ s%"move to envelopes")⟩,
          by rintro p ⟨⟩, ?_, ?_⟩
        · intro c hc
          have : some s%"automatically generated by silverfox" = some c := hc
          cases this
          decide
        · intro p hp
          obtain ⟨q, hqm, rfl⟩ := List.mem_map.1 hp
          exact (hq q hqm).1
      have hround : (Ledger.fillEntry env.today fs).rounded = (Ledger.fillEntry env.today fs).bare := by
        unfold Entry.rounded Entry.bare
        congr 1
        show (fs.map Posting.envelope).map Posting.rounded = fs.map Posting.envelope
        rw [List.map_map]
        apply List.map_congr_left
        intro q hqm
        have := (hq q hqm).2
        show Posting.envelope _ = _
        cases q with
        | mk acc en am =>
          cases am with
          | mk m sy =>
            simp only at this
            simp [Amount.rounded, this]
      have hval : (Ledger.fillEntry env.today fs).validate = .ok () := by
        have key : ∀ (fs : List (EnvPosting M)) (syms : List Str), ∃ syms', validateLoop (fs.map Posting.envelope) 0 syms = .ok (0, syms') := by
          intro fs
          induction fs with
          | nil => intro syms; exact ⟨syms, rfl⟩
          | cons q fs ih =>
            intro syms
            simp only [List.map_cons, validateLoop, Posting.amount]
            split
            · exact ih _
            · exact ih _
        obtain ⟨syms', hk⟩ := key fs []
        unfold Entry.validate
        show (do let (blanks, syms) ← validateLoop (fs.map Posting.envelope) 0 []; _) = _
        rw [hk]
        rfl
      have hacc : ∀ p ∈ (Ledger.fillEntry env.today fs).postings, p.isEnvelope = false → p.account ∈ l.accountNames := by
        intro p hp he
        obtain ⟨q, _, rfl⟩ := List.mem_map.1 hp
        cases he
      have := append_reload env fuel w w1 w' path l l' _ d hload hsame hw hkw hval hacc h
      rw [this, hround]
      have hadd : l.addEntry env (Ledger.fillEntry env.today fs) = .ok l' := by
        unfold Ledger.appendEntry at h
        split at h
        · cases h
        · split at h
          · cases h
          · split at h
            · cases h
            · exact (Prod.mk.inj h).2
      rw [addEntry_bare env l l' _ hplain hadd]
      rfl

/-- The symbol of every fill amount is that of an envelope. -/
theorem fillingPostings_sym (today : Date) (a : Account M) (qs : List (EnvPosting M))
    (h : a.fillingPostings today = .ok qs) : ∀ q ∈ qs, ∃ e ∈ a.envelopes, q.amount.sym = e.amount.sym := by
  have key : ∀ (es : List (Envelope M)) (av : Pool M) (qs : List (EnvPosting M)),
      (∀ e ∈ es, e ∈ a.envelopes) → Account.fillLoop today es av = .ok qs →
      ∀ q ∈ qs, ∃ e ∈ a.envelopes, q.amount.sym = e.amount.sym := by
    intro es
    induction es with
    | nil => intro av qs _ h q hq; cases h; cases hq
    | cons v es ih =>
      intro av qs hes h q hq
      obtain ⟨p, ps', rfl, h1, h2⟩ := fillLoop_cons today v es av qs h
      rcases List.mem_cons.1 hq with rfl | hq
      · refine ⟨v, hes v (by simp), ?_⟩
        have h3 := (fillingPosting_ok _ _ _ _ h1).2.2
        generalize q.amount = qa at h3 ⊢
        unfold Envelope.fillingAmount at h3
        split at h3
        · cases h3
        · simp only [bind, Except.bind, pure, Except.pure] at h3
          split at h3
          · cases h3
          · split at h3
            · cases h3; rfl
            · split at h3
              · cases h3
              · split at h3
                · cases h3; rfl
                · split at h3
                  · cases h3; rfl
                  · cases h3; rfl
                  · cases h3; rfl
      · exact ih _ _ (fun e he => hes e (by simp [he])) h2 q hq
  exact key _ _ _ (by simp) h

/-- C61, in the arithmetic of the program, for a journal in the default date format and a day of the years 0 to
9999, with the conditions on amounts spelled out: currency symbols of envelopes are single words, no comment marks,
no operators; fill amounts are finite and have no more than 8 decimals. -/
theorem C61_reload_f64_partial (env : Env) (hord : FairOrder env.ord) (hp : env.parseDate = stdParseDate)
    (hf : env.fmtDate = stdFmtDate) (fuel : Nat) (w w1 w' : World) (path : Str)
    (l l' : Ledger F64) (hload : Ledger.fromFile env fuel w path = .ok (l, w1))
    (hsame : resolve w1.cwd path = resolve w.cwd path) (hfmt : l.dateFormat = s%"%Y/%m/%d")
    (hy : 0 ≤ env.today.y ∧ env.today.y ≤ 9999)
    (hsym : ∀ k a e s, (k, a) ∈ l.accounts → e ∈ a.envelopes → e.amount.sym = some s →
      ValidSymbol '.' s ∧ NoComment s ∧ s ∉ [s%"!", s%"!!", s%"@", s%"="])
    (hamt : ∀ k a qs, (k, a) ∈ l.accounts → a.fillingPostings env.today = .ok qs → ∀ q ∈ qs,
      q.amount.mag.finite = true ∧ round8 q.amount.mag = q.amount.mag)
    (h : l.fillEnvelopes env w1 = (w', .ok l')) :
    Ledger.fromFile env fuel { w' with cwd := w.cwd } path =
      .ok ({ l' with entries := l'.entries.map fun e => { e with comment := none } }, w') := by
  obtain ⟨d, h1, h2, h3, h4, c, r, h5, h6⟩ := std_date_default env.today hy
  refine C61_reload_partial env hord fuel w w1 w' path d l l' hload hsame ?_ ⟨h3, h4⟩ ?_ ?_ h
  · rw [hf, hp, hfmt]; exact ⟨h1, h2⟩
  · intro hm
    rw [h5] at hm
    simp only [List.mem_cons, List.not_mem_nil, or_false] at hm
    rcases hm with hm | hm | hm | hm <;> (rw [(List.cons.inj hm).1] at h6; revert h6; decide)
  · intro k a qs hm hq q hqq _
    obtain ⟨h7, h8⟩ := hamt k a qs hm hq q hqq
    refine ⟨C11_printable_f64 _ (by rw [h8]; exact h7) fun s hs => ?_, h8⟩
    obtain ⟨e, he, h9⟩ := fillingPostings_sym env.today a qs hq q hqq
    exact hsym k a e s hm he (by rw [← h9]; exact hs)

/-- Fill, then load the journal again: the entries and what the envelopes hold, in memory and on reloading. -/
def fillReload (M : Type) [Mag M] (today : Date) (w : World) (path : Str) :
    Res ((List M × Nat) × (List M × Nat)) := do
  let (l, w1) ← (Ledger.fromFile (stdEnv today) 9 w path : Res (Ledger M × World))
  match l.fillEnvelopes (stdEnv today) w1 with
  | (_, .error f) => .error f
  | (w', .ok l') =>
    let (l2, _) ← (Ledger.fromFile (stdEnv today) 9 { w' with cwd := w.cwd } path : Res (Ledger M × World))
    let holds := fun l : Ledger M => (l.accounts.flatMap fun a => a.2.envelopes.map fun e => e.totalMag)
    pure ((holds l', l'.entries.length), (holds l2, l2.entries.length))

/-- C61: a case, in both arithmetics. -/
example : fillReload Rat june15 (disk [("j", exJournal)]) s%"j" = .ok (([30], 2), ([30], 2)) := by decide +kernel

example : fillReload F64 june15 (disk [("j", exJournal)]) s%"j" =
    .ok (([Mag.ofInt 30], 2), ([Mag.ofInt 30], 2)) := by decide +kernel

/-- C61 needs its conditions. A third of the target is not written exactly, and the envelope holds less on
reloading; and a journal in another directory is not extended at all, so the money is not in the envelope on
reloading. -/
theorem C61_conditions :
    fillReload Rat june15 (disk [("j", "account a\n  goal trip by 2024/06/18\n    amount 10\n    funding conservative
account b\n2024/01/02 * pay\n a 30\n b -30\n")]) s%"j" =
      .ok (([10 / 3], 2), ([333333333 / 100000000], 2)) ∧
    fillReload Rat june15 (subdirDisk [([s%"h", s%"money", s%"j"], exJournal.toList),
      ([s%"h", s%"money", s%"money", s%"j"], s%"other")]) s%"money/j" = .ok (([30], 2), ([0], 1)) := by
  decide +kernel

end Silverfox
