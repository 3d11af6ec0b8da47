import Verif.Props.Include

/-!
# C54 for journals in several directories

A relative path after `include` is resolved against the directory of the file that was opened last,
so pasting a file may change what later lines mean (`C54_relative_include`). This cannot happen where
the names mean the same from every directory that is entered: for instance where all are absolute.
-/

set_option linter.unusedSectionVars false

namespace Silverfox

variable {M : Type} [Mag M]

/-- Specification: the files `S` include only files of `S`, by names that mean the same from every
directory that holds a file of `S`. -/
structure Steady (w : World) (S : APath → Prop) (P : Str → Prop) : Prop where
  same : ∀ p q n, S p → S q → P n → resolve p.dropLast n = resolve q.dropLast n
  within : ∀ p n, S p → P n → S (resolve p.dropLast n)
  named : ∀ p t, S p → w.file p = some t → IncludeLines P (lines t)

/-- The working directory holds a file of `S`. -/
def AtHome (S : APath → Prop) (w : World) : Prop := ∃ p, S p ∧ w.cwd = p.dropLast

/-- The files are those of `a`, and those of `a'`; the program is in a directory of `S`. -/
def Beside (S : APath → Prop) (a a' w w' : World) : Prop :=
  w.file = a.file ∧ w'.file = a'.file ∧ AtHome S w ∧ AtHome S w'

/-- What `inc` loads from the files of `a`, `inc'` loads from those of `a'`. -/
def SimAt (S : APath → Prop) (a a' : World) (inc inc' : Ledger M × World → Str → Res (Ledger M × World)) : Prop :=
  ∀ l n l1 w w1 w', w.file = a.file → w'.file = a'.file → resolve w.cwd n = resolve w'.cwd n →
    S (resolve w.cwd n) → inc (l, w) n = .ok (l1, w1) →
    ∃ w1', inc' (l, w') n = .ok (l1, w1') ∧ Beside S a a' w1 w1'

theorem parseChunk_at {a0 : World} {S : APath → Prop} {P : Str → Prop} (hst : Steady a0 S P) (a a' : World)
    (env : Env) (inc inc' : Ledger M × World → Str → Res (Ledger M × World)) (h : SimAt S a a' inc inc')
    (l l1 : Ledger M) (w w' w1 : World) (hb : Beside S a a' w w') (c : Str) (hc : FlatChunk P c)
    (hr : Ledger.parseChunk env inc (l, w) c = .ok (l1, w1)) :
    ∃ w1', Ledger.parseChunk env inc' (l, w') c = .ok (l1, w1') ∧ Beside S a a' w1 w1' := by
  unfold Ledger.parseChunk at hr ⊢
  split
  · rename_i hc; rw [if_pos hc] at hr; cases hr; exact ⟨w', rfl, hb⟩
  · rename_i hne
    rw [if_neg hne] at hr
    cases hs : splitWs c with
    | nil => rw [hs] at hr; cases hr; exact ⟨w', rfl, hb⟩
    | cons kw rest =>
      rw [hs] at hr
      simp only at hr ⊢
      split
      · rename_i hk
        rw [if_pos hk] at hr
        simp only [bind, Except.bind, pure, Except.pure] at hr ⊢
        cases ha : l.parseAccount env c with
        | error f => rw [ha] at hr; cases hr
        | ok a => rw [ha] at hr; cases hr; exact ⟨w', rfl, hb⟩
      · rename_i hk
        rw [if_neg hk] at hr
        split
        · rename_i hk
          rw [if_pos hk] at hr
          cases rest with
          | nil => cases hr
          | cons v r => cases hr; exact ⟨w', rfl, hb⟩
        · rename_i hk
          rw [if_neg hk] at hr
          split
          · rename_i hk
            rw [if_pos hk] at hr
            cases rest with
            | nil => cases hr
            | cons v r => cases hr; exact ⟨w', rfl, hb⟩
          · rename_i hk
            rw [if_neg hk] at hr
            split
            · rename_i hk
              rw [if_pos hk] at hr
              subst hk
              cases rest with
              | nil => cases hr
              | cons v r =>
                obtain ⟨v', r', e, hv⟩ := hc _ hs
                cases e
                obtain ⟨h1, h2, ⟨p, hp, ep⟩, ⟨q, hq, eq⟩⟩ := hb
                refine h _ _ _ _ _ _ h1 h2 ?_ ?_ hr
                · rw [ep, eq]; exact hst.same p q v hp hq hv
                · rw [ep]; exact hst.within p v hp hv
            · rename_i hk
              rw [if_neg hk] at hr
              simp only [bind, Except.bind, pure, Except.pure] at hr ⊢
              cases ha : l.parseEntry env c with
              | error f => rw [ha] at hr; cases hr
              | ok a => rw [ha] at hr; cases hr; exact ⟨w', rfl, hb⟩

theorem addLinesFrom_at {a0 : World} {S : APath → Prop} {P : Str → Prop} (hst : Steady a0 S P) (a a' : World)
    (env : Env) (inc inc' : Ledger M × World → Str → Res (Ledger M × World)) (h : SimAt S a a' inc inc')
    (ls : List Str) (hls : IncludeLines P ls) (l l1 : Ledger M) (w w' w1 : World) (hb : Beside S a a' w w')
    (c : Str) (hc : FlatChunk P c) (hr : Ledger.addLinesFrom env inc ls (l, w) c = .ok (l1, w1)) :
    ∃ w1', Ledger.addLinesFrom env inc' ls (l, w') c = .ok (l1, w1') ∧ Beside S a a' w1 w1' := by
  induction ls generalizing l c w w' with
  | nil => exact parseChunk_at hst a a' env inc inc' h l l1 w w' w1 hb c hc hr
  | cons x ls ih =>
    have hls' : IncludeLines P ls := fun y hy => hls y (List.mem_cons_of_mem _ hy)
    have hx := hls.effective (List.mem_cons_self (a := x) (l := ls))
    simp only [Ledger.addLinesFrom] at hr ⊢
    cases he : removeComments (trimEnd x) with
    | nil => rw [he] at hr; exact ih hls' l w w' hb c hc hr
    | cons d e =>
      rw [he] at hr hx
      simp only at hr ⊢
      split
      · rename_i hw; rw [if_pos hw] at hr; exact ih hls' l w w' hb _ (hc.snoc hx) hr
      · rename_i hw
        rw [if_neg hw] at hr
        simp only [bind, Except.bind] at hr ⊢
        cases hp : Ledger.parseChunk env inc (l, w) c with
        | error f => rw [hp] at hr; cases hr
        | ok st1 =>
          obtain ⟨l2, w2⟩ := st1
          rw [hp] at hr
          obtain ⟨w2', hp', hb'⟩ := parseChunk_at hst a a' env inc inc' h l l2 w w' w2 hb c hc hp
          rw [hp']
          exact ih hls' l2 w2 w2' hb' _ hx hr

theorem read_eq (w w' : World) (n : Str) (h : resolve w.cwd n = resolve w'.cwd n)
    (hf : w.file (resolve w.cwd n) = w'.file (resolve w.cwd n)) : w.read n = w'.read n := by
  unfold World.read
  rw [← h, hf]

theorem atHome_cd (S : APath → Prop) (w : World) (n : Str) (h : S (resolve w.cwd n)) : AtHome S (w.cdParent n) :=
  ⟨_, h, rfl⟩

section Paste

variable (env : Env) (w : World) (S : APath → Prop) (P : Str → Prop) (hw : Steady w S P)
  (F G : APath) (g s s' t i : Str) (pre post : List Str)
  (hF : S F) (hgP : P g) (hg : resolve F.dropLast g = G) (hgn : endsInName g = true) (hFG : G ≠ F)
  (hs : w.file F = some s) (ht : w.file G = some t)
  (hlines : lines s = pre ++ i :: post) (hi : IsInclude i g)
  (hlines' : lines s' = pre ++ lines t ++ post) (hstart : StartsItem (lines t)) (hpost : StartsItem post)

include hw hF hs ht hg hgP hlines in
theorem anywhere_parts : IncludeLines P pre ∧ IncludeLines P post ∧ IncludeLines P (lines t) := by
  have hfl := hw.named F s hF hs
  rw [hlines] at hfl
  refine ⟨fun l hl => hfl l (by simp [hl]), fun l hl => hfl l (by simp [hl]), ?_⟩
  exact hw.named G t (by rw [← hg]; exact hw.within F g hF hgP) ht

include hw hF hgP hg hgn hFG hs ht hlines hi hlines' hstart hpost in
theorem anywhere_forward (fuel : Nat) :
    SimAt S w (w.write F s') (Ledger.addFromFile (M := M) env fuel) (Ledger.addFromFile env fuel) := by
  obtain ⟨hf1, hf2, hf3⟩ := anywhere_parts w S P hw F G g s t i pre post hF hgP hg hs ht hlines
  induction fuel with
  | zero => intro l n l1 w0 w1 w' _ _ _ _ h; cases h
  | succ k ih =>
    intro l n l1 w0 w1 w0' e0 e0' hres hS h
    rw [Ledger.addFromFile] at h ⊢
    have hb : Beside S w (w.write F s') (w0.cdParent n) (w0'.cdParent n) :=
      ⟨e0, e0', atHome_cd S w0 n hS, atHome_cd S w0' n (by rw [← hres]; exact hS)⟩
    simp only [World.read, ← hres] at h ⊢
    by_cases hn : endsInName n = true
    · rw [if_pos hn] at h ⊢
      rw [e0] at h
      rw [e0']
      by_cases hnf : resolve w0.cwd n = F
      · rw [hnf] at h ⊢
        rw [hs] at h
        simp only [World.write, if_true]
        simp only [hlines] at h
        simp only [hlines']
        rw [addLinesFrom_around env _ pre post i g hi hpost] at h
        rw [List.append_assoc, addLinesFrom_append env _ pre _ (hstart.append hpost)]
        simp only [bind, Except.bind] at h ⊢
        cases h1 : Ledger.addLinesFrom env (Ledger.addFromFile env k) pre (l, w0.cdParent n) [] with
        | error e => rw [h1] at h; cases h
        | ok r =>
          obtain ⟨l2, w2⟩ := r
          rw [h1] at h
          obtain ⟨w2', h1', hb2⟩ := addLinesFrom_at hw _ _ env _ _ ih pre hf1 l l2 _ _ w2 hb [] .nil h1
          rw [h1']
          simp only at h ⊢
          cases h2 : Ledger.addFromFile env k (l2, w2) g with
          | error e => rw [h2] at h; cases h
          | ok r =>
            obtain ⟨l3, w3⟩ := r
            rw [h2] at h
            obtain ⟨q1, q2, ⟨p, hp, ep⟩, ⟨q, hq, eq⟩⟩ := hb2
            have hG : resolve w2.cwd g = G := by rw [ep, hw.same p F g hp hF hgP, hg]
            have hG' : resolve w2'.cwd g = G := by rw [eq, hw.same q F g hq hF hgP, hg]
            have hSG : S G := by rw [← hg]; exact hw.within F g hF hgP
            cases k with
            | zero => cases h2
            | succ k' =>
              -- the included file, from the directory where the pasted lines are read
              have h2' := h2
              rw [Ledger.addFromFile] at h2'
              simp only [World.read, if_pos hgn, hG, q1, ht] at h2'
              have h3 := addLinesFrom_mono env _ (Ledger.addFromFile env (k' + 1))
                (fun st p r hh => addFromFile_mono env k' 1 st r p hh) _ _ _ _ h2'
              have hb3 : Beside S w (w.write F s') (w2.cdParent g) w2' :=
                ⟨q1, q2, atHome_cd S w2 g (by rw [hG]; exact hSG), ⟨q, hq, eq⟩⟩
              obtain ⟨w3', h3', hb3'⟩ := addLinesFrom_at hw _ _ env _ _ ih (lines t) hf3 l2 l3 _ w2' w3 hb3 [] .nil h3
              rw [addLinesFrom_append env _ (lines t) post hpost]
              simp only [bind, Except.bind]
              rw [h3']
              exact addLinesFrom_at hw _ _ env _ _ ih post hf2 l3 l1 w3 w3' w1 hb3' [] .nil h
      · have e1 : (w.write F s').file (resolve w0.cwd n) = w.file (resolve w0.cwd n) := by
          simp only [World.write, if_neg hnf]
        rw [e1]
        cases hu : w.file (resolve w0.cwd n) with
        | none => rw [hu] at h; cases h
        | some u =>
          rw [hu] at h
          exact addLinesFrom_at hw _ _ env _ _ ih (lines u) (hw.named _ u hS hu) l l1 _ _ w1 hb [] .nil h
    · rw [if_neg hn] at h; cases h

include hw hF hgP hg hgn hFG hs ht hlines hi hlines' hstart hpost in
theorem anywhere_backward (fuel : Nat) :
    SimAt S (w.write F s') w (Ledger.addFromFile (M := M) env fuel) (Ledger.addFromFile env (2 * fuel)) := by
  obtain ⟨hf1, hf2, hf3⟩ := anywhere_parts w S P hw F G g s t i pre post hF hgP hg hs ht hlines
  induction fuel with
  | zero => intro l n l1 w0 w1 w' _ _ _ _ h; cases h
  | succ k ih =>
    intro l n l1 w0 w1 w0' e0 e0' hres hS h
    have e2 : 2 * (k + 1) = 2 * k + 1 + 1 := by omega
    rw [e2]
    have hmono : ∀ st p r, Ledger.addFromFile (M := M) env (2 * k) st p = .ok r →
        Ledger.addFromFile env (2 * k + 1) st p = .ok r :=
      fun st p r hh => addFromFile_mono env (2 * k) 1 st r p hh
    rw [Ledger.addFromFile] at h ⊢
    have hb : Beside S (w.write F s') w (w0.cdParent n) (w0'.cdParent n) :=
      ⟨e0, e0', atHome_cd S w0 n hS, atHome_cd S w0' n (by rw [← hres]; exact hS)⟩
    simp only [World.read, ← hres] at h ⊢
    by_cases hn : endsInName n = true
    · rw [if_pos hn] at h ⊢
      rw [e0] at h
      rw [e0']
      by_cases hnf : resolve w0.cwd n = F
      · rw [hnf] at h ⊢
        have e1 : (w.write F s').file F = some s' := by simp [World.write]
        rw [e1] at h
        simp only [hlines', List.append_assoc] at h
        simp only [hs, hlines]
        rw [addLinesFrom_append env _ pre _ (hstart.append hpost)] at h
        rw [addLinesFrom_around env _ pre post i g hi hpost]
        simp only [bind, Except.bind] at h ⊢
        cases h1 : Ledger.addLinesFrom env (Ledger.addFromFile env k) pre (l, w0.cdParent n) [] with
        | error e => rw [h1] at h; cases h
        | ok r =>
          obtain ⟨l2, w2⟩ := r
          rw [h1] at h
          obtain ⟨w2', h1', hb2⟩ := addLinesFrom_at hw _ _ env _ _ ih pre hf1 l l2 _ _ w2 hb [] .nil h1
          rw [addLinesFrom_mono env _ _ hmono _ _ _ _ h1']
          simp only at h ⊢
          rw [addLinesFrom_append env _ (lines t) post hpost] at h
          simp only [bind, Except.bind] at h
          cases h2 : Ledger.addLinesFrom env (Ledger.addFromFile env k) (lines t) (l2, w2) [] with
          | error e => rw [h2] at h; cases h
          | ok r =>
            obtain ⟨l3, w3⟩ := r
            rw [h2] at h
            simp only at h
            obtain ⟨q1, q2, hh, ⟨q, hq, eq⟩⟩ := hb2
            have hG' : resolve w2'.cwd g = G := by rw [eq, hw.same q F g hq hF hgP, hg]
            have hSG : S G := by rw [← hg]; exact hw.within F g hF hgP
            have hb3 : Beside S (w.write F s') w w2 (w2'.cdParent g) :=
              ⟨q1, q2, hh, atHome_cd S w2' g (by rw [hG']; exact hSG)⟩
            obtain ⟨w3', h2', hb3'⟩ := addLinesFrom_at hw _ _ env _ _ ih (lines t) hf3 l2 l3 w2 _ w3 hb3 [] .nil h2
            have h3 : Ledger.addFromFile env (2 * k + 1) (l2, w2') g = .ok (l3, w3') := by
              rw [Ledger.addFromFile]
              simp only [World.read, if_pos hgn, hG', q2, ht]
              exact h2'
            rw [h3]
            obtain ⟨w4', h4, hb4⟩ := addLinesFrom_at hw _ _ env _ _ ih post hf2 l3 l1 w3 w3' w1 hb3' [] .nil h
            exact ⟨w4', addLinesFrom_mono env _ _ hmono _ _ _ _ h4, hb4⟩
      · have e1 : (w.write F s').file (resolve w0.cwd n) = w.file (resolve w0.cwd n) := by
          simp only [World.write, if_neg hnf]
        rw [e1] at h
        cases hu : w.file (resolve w0.cwd n) with
        | none => rw [hu] at h; cases h
        | some u =>
          rw [hu] at h
          obtain ⟨w4', h4, hb4⟩ :=
            addLinesFrom_at hw _ _ env _ _ ih (lines u) (hw.named _ u hS hu) l l1 _ _ w1 hb [] .nil h
          exact ⟨w4', addLinesFrom_mono env _ _ hmono _ _ _ _ h4, hb4⟩
    · rw [if_neg hn] at h; cases h

include hw hF hgP hg hgn hFG hs ht hlines hi hlines' hstart hpost in
/-- The line `include g` of a file may be replaced by the lines of `g` wherever the names of included
files mean the same from every directory of the journal: the same ledger is loaded, whatever file of
the journal is loaded, and by whatever name. -/
theorem C54_anywhere_partial (path : Str) (hpath : S (resolve w.cwd path)) (l : Ledger M) :
    Loads env w path l ↔ Loads env (w.write F s') path l := by
  constructor
  · rintro ⟨fuel, w1, h⟩
    obtain ⟨w1', h', _⟩ := anywhere_forward env w S P hw F G g s s' t i pre post hF hgP hg hgn hFG hs ht hlines hi
      hlines' hstart hpost fuel _ path l w w1 (w.write F s') rfl rfl rfl hpath h
    exact ⟨fuel, w1', h'⟩
  · rintro ⟨fuel, w1, h⟩
    obtain ⟨w1', h', _⟩ := anywhere_backward env w S P hw F G g s s' t i pre post hF hgP hg hgn hFG hs ht hlines hi
      hlines' hstart hpost fuel _ path l (w.write F s') w1 w rfl rfl rfl hpath h
    exact ⟨2 * fuel, w1', h'⟩

end Paste

/-! ### Absolute paths -/

/-- An absolute path. -/
def rooted (n : Str) : Prop := n.head? = some '/'

instance (n : Str) : Decidable (rooted n) := by unfold rooted; infer_instance

/-- Every file includes others by absolute paths only. -/
def AllRooted (w : World) : Prop := ∀ p t, w.file p = some t → IncludeLines rooted (lines t)

theorem rooted.resolve {n : Str} (h : rooted n) (c d : APath) : resolve c n = resolve d n := by
  have h' : n.head? = some '/' := h
  unfold Silverfox.resolve
  rw [if_pos h', if_pos h']

theorem AllRooted.steady {w : World} (h : AllRooted w) : Steady w (fun _ => True) rooted :=
  ⟨fun _ _ _ _ _ hn => hn.resolve _ _, fun _ _ _ _ => trivial, fun p t _ ht => h p t ht⟩

/-- Where all includes are absolute paths, the line `include g` of any file may be replaced by the
lines of `g`, in whatever directories the files are: the same ledger is loaded, whatever file is loaded
and from whatever directory. -/
theorem C54_absolute_paths_partial (env : Env) (w : World) (hw : AllRooted w) (F : APath) (g s s' t i : Str)
    (pre post : List Str) (hs : w.file F = some s) (hg : rooted g) (ht : w.read g = some t)
    (hFG : resolve [] g ≠ F) (hlines : lines s = pre ++ i :: post) (hi : IsInclude i g)
    (hlines' : lines s' = pre ++ lines t ++ post) (hstart : StartsItem (lines t)) (hpost : StartsItem post)
    (path : Str) (l : Ledger M) :
    Loads env w path l ↔ Loads env (w.write F s') path l := by
  unfold World.read at ht
  split at ht
  · rename_i hgn
    rw [hg.resolve w.cwd []] at ht
    exact C54_anywhere_partial env w _ _ hw.steady F (resolve [] g) g s s' t i pre post trivial hg
      (hg.resolve _ _) hgn hFG hs ht hlines hi hlines' hstart hpost path trivial l
  · cases ht

/-! The hypotheses can be met. -/

instance decIncludeLine (P : Str → Prop) [DecidablePred P] (toks : List Str) :
    Decidable (∀ r, toks = s%"include" :: r → ∃ v r', r = v :: r' ∧ P v) :=
  match toks with
  | [] => .isTrue (by intro r h; cases h)
  | [t] => if h : t = s%"include" then .isFalse (by
        subst h; intro hh; obtain ⟨_, _, h, _⟩ := hh [] rfl; cases h)
      else .isTrue (by intro r e; cases e; exact absurd rfl h)
  | t :: v :: r' => if h : t = s%"include" then
        if hb : P v then .isTrue (by intro r e; cases e; exact ⟨v, r', rfl, hb⟩)
        else .isFalse (by subst h; intro hh; obtain ⟨_, _, h, h'⟩ := hh _ rfl; cases h; exact hb h')
      else .isTrue (by intro r e; cases e; exact absurd rfl h)

instance (P : Str → Prop) [DecidablePred P] (ls : List Str) : Decidable (IncludeLines P ls) := by
  unfold IncludeLines; infer_instance

theorem subdirDisk_rooted (files : List (APath × Str)) (h : ∀ f ∈ files, IncludeLines rooted (lines f.2)) :
    AllRooted (subdirDisk files) := by
  intro p t ht
  simp only [subdirDisk] at ht
  cases hx : files.find? fun f => f.1 = p with
  | none => rw [hx] at ht; cases ht
  | some f =>
    rw [hx] at ht
    cases ht
    exact h f (List.mem_of_find?_eq_some hx)

/-- A journal in three directories. -/
def threeDirectories : World := subdirDisk
  [([s%"h", s%"j"], "include /h/x/a\ninclude /h/y/b\n2024/01/02 * x\n a 1\n b\n".toList),
   ([s%"h", s%"x", s%"a"], "account a\n".toList), ([s%"h", s%"y", s%"b"], "account b\n".toList)]

example (l : Ledger F64) : Loads (stdEnv june15) threeDirectories s%"j" l ↔
    Loads (stdEnv june15) (threeDirectories.write [s%"h", s%"j"]
      "account a\ninclude /h/y/b\n2024/01/02 * x\n a 1\n b\n".toList) s%"j" l :=
  C54_absolute_paths_partial (stdEnv june15) threeDirectories (subdirDisk_rooted _ (by decide +kernel)) [s%"h", s%"j"]
    s%"/h/x/a" "include /h/x/a\ninclude /h/y/b\n2024/01/02 * x\n a 1\n b\n".toList _ "account a\n".toList
    s%"include /h/x/a" [] [s%"include /h/y/b", s%"2024/01/02 * x", s%" a 1", s%" b"]
    (by decide +kernel) (by decide) (by decide +kernel) (by decide) (by decide +kernel) ⟨by decide, [], by decide⟩
    (by decide +kernel) (by decide +kernel) (by decide +kernel) s%"j" l

/-- and it loads -/
example : ∃ r, (Ledger.fromFile (stdEnv june15) 9 threeDirectories s%"j" : Res (Ledger F64 × World)) = .ok r ∧
    r.1.accountNames = [s%"a", s%"b"] ∧ r.1.entries.length = 1 := by
  decide +kernel

end Silverfox
