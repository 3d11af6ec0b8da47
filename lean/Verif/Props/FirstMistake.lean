import Verif.Props.Quotes

/-!
# C114: the first mistake is the one that is reported

Text added after a journal that does not load leaves the error as it is. The journal may include other
files, and may even include itself: so the files are followed to the place of the mistake.
-/

set_option linter.unusedSectionVars false

namespace Silverfox

variable {M : Type} [Mag M]

/-- A result, in a world with other files. -/
def Res.withFiles (file' : APath → Option Str) (r : Res (Ledger M × World)) : Res (Ledger M × World) :=
  r.map fun st => (st.1, st.2.withFiles file')

/-- Reading a file gives the same result and the same message with the files `file'`; `B`, or the name is
scanned. -/
def SameInc (B : Prop) (file file' : APath → Option Str) (sc : APath → Str → Option APath)
    (inc : Ledger M × World → Str → Res (Ledger M × World)) (why : Ledger M × World → Str → Option Err) : Prop :=
  ∀ l v n, v.file = file → (B ∨ ∃ d, sc v.cwd n = some d) →
    inc (l, v.withFiles file') n = (inc (l, v) n).withFiles file' ∧
    why (l, v.withFiles file') n = why (l, v) n ∧
    ∀ l1 v1, inc (l, v) n = .ok (l1, v1) → v1.file = file ∧ ∀ d, sc v.cwd n = some d → v1.cwd = d

section Lines

variable {env : Env} {B : Prop} {file file' : APath → Option Str} {sc : APath → Str → Option APath}
  {inc : Ledger M × World → Str → Res (Ledger M × World)} {why : Ledger M × World → Str → Option Err}

theorem chunkWhy_file (st : Ledger M × World) (c v : Str) (h : ∃ r, splitWs c = s%"include" :: v :: r) :
    chunkWhy env why st c = why st v := by
  obtain ⟨r, h⟩ := h
  unfold chunkWhy
  split
  · rename_i hc; rw [List.isEmpty_iff.1 hc] at h; cases h
  · rw [h]; rfl

theorem chunkWhy_other (why why' : Ledger M × World → Str → Option Err) (l : Ledger M) (v v' : World) (c : Str)
    (h : ∀ n r, splitWs c ≠ s%"include" :: n :: r) :
    chunkWhy env why (l, v) c = chunkWhy env why' (l, v') c := by
  unfold chunkWhy
  split
  · rfl
  · cases hs : splitWs c with
    | nil => rfl
    | cons kw rest =>
      simp only
      split
      · rfl
      · split
        · rfl
        · split
          · rfl
          · split
            · rename_i hk
              subst hk
              cases rest with
              | nil => rfl
              | cons n r => exact absurd hs (h n r)
            · rfl

theorem sameInc_chunk (h : SameInc B file file' sc inc why) (l : Ledger M) (v : World) (c : Str) (hv : v.file = file)
    (hs : B ∨ ∃ d, scanChunk sc v.cwd c = some d) :
    Ledger.parseChunk env inc (l, v.withFiles file') c = (Ledger.parseChunk env inc (l, v) c).withFiles file' ∧
    chunkWhy env why (l, v.withFiles file') c = chunkWhy env why (l, v) c ∧
    ∀ l1 v1, Ledger.parseChunk env inc (l, v) c = .ok (l1, v1) →
      v1.file = file ∧ ∀ d, scanChunk sc v.cwd c = some d → v1.cwd = d := by
  unfold scanChunk at hs ⊢
  cases hi : incOf c with
  | no hn =>
    obtain ⟨r, hr⟩ := parseChunk_no env l c hn
    refine ⟨?_, chunkWhy_other _ _ _ _ _ _ fun n r => hn _, ?_⟩
    · rw [hr, hr]
      cases r <;> rfl
    · intro l1 v1 h1
      rw [hr] at h1
      cases r with
      | error f => cases h1
      | ok l2 =>
        cases h1
        exact ⟨hv, fun d hd => by cases hd; rfl⟩
  | bad hb =>
    refine ⟨?_, chunkWhy_other _ _ _ _ _ _ fun n r e => ?_, ?_⟩
    · rw [parseChunk_bad env inc _ c hb, parseChunk_bad env inc _ c hb]; rfl
    · rw [hb] at e; cases e
    · intro l1 v1 h1
      rw [parseChunk_bad env inc _ c hb] at h1
      cases h1
  | file n hn =>
    rw [hi] at hs
    rw [parseChunk_file env inc _ c n hn, parseChunk_file env inc _ c n hn, chunkWhy_file _ c n hn,
      chunkWhy_file _ c n hn]
    exact h l v n hv hs

theorem sameInc_lines (h : SameInc B file file' sc inc why) (ls : List Str) (l : Ledger M) (v : World) (c : Str)
    (hv : v.file = file) (hs : B ∨ ∃ d, scanLines sc ls v.cwd c = some d) :
    Ledger.addLinesFrom env inc ls (l, v.withFiles file') c =
      (Ledger.addLinesFrom env inc ls (l, v) c).withFiles file' ∧
    linesWhy env inc why ls (l, v.withFiles file') c = linesWhy env inc why ls (l, v) c ∧
    ∀ l1 v1, Ledger.addLinesFrom env inc ls (l, v) c = .ok (l1, v1) →
      v1.file = file ∧ ∀ d, scanLines sc ls v.cwd c = some d → v1.cwd = d := by
  induction ls generalizing l v c with
  | nil => exact sameInc_chunk h l v c hv hs
  | cons x ls ih =>
    simp only [Ledger.addLinesFrom, linesWhy, scanLines] at hs ⊢
    cases he : removeComments (trimEnd x) with
    | nil => rw [he] at hs; exact ih l v c hv hs
    | cons y r =>
      rw [he] at hs
      simp only at hs ⊢
      by_cases hw : isWs y = true
      · simp only [if_pos hw] at hs ⊢; exact ih l v _ hv hs
      · simp only [if_neg hw] at hs ⊢
        have hsc : B ∨ ∃ d, scanChunk sc v.cwd c = some d := by
          refine hs.imp id ?_
          rintro ⟨d, hd⟩
          cases h2 : scanChunk sc v.cwd c with
          | none => rw [h2] at hd; cases hd
          | some d1 => exact ⟨d1, rfl⟩
        obtain ⟨h1, h2, h3⟩ := sameInc_chunk (env := env) h l v c hv hsc
        rw [h1, h2]
        cases hp : Ledger.parseChunk env inc (l, v) c with
        | error f =>
          refine ⟨rfl, rfl, ?_⟩
          intro l1 v1 e
          cases e
        | ok st =>
          obtain ⟨l2, v2⟩ := st
          obtain ⟨h4, h5⟩ := h3 l2 v2 hp
          have hs2 : B ∨ ∃ d, scanLines sc ls v2.cwd (y :: r) = some d := by
            refine hs.imp id ?_
            rintro ⟨d, hd⟩
            cases h6 : scanChunk sc v.cwd c with
            | none => rw [h6] at hd; cases hd
            | some d1 => rw [h6] at hd; rw [h5 d1 h6]; exact ⟨d, hd⟩
          obtain ⟨k1, k2, k3⟩ := ih l2 v2 (y :: r) h4 hs2
          refine ⟨k1, k2, fun l1 v1 e => ?_⟩
          obtain ⟨m1, m2⟩ := k3 l1 v1 e
          refine ⟨m1, fun d hd => ?_⟩
          cases h6 : scanChunk sc v.cwd c with
          | none => rw [h6] at hd; cases hd
          | some d1 => rw [h6] at hd; exact m2 d (by rw [h5 d1 h6]; exact hd)

/-- An error in some lines, before others. -/
theorem addEff_fails (hi : ∀ st v, Tells (why st v) (inc st v)) (xs ys : List Str) (hy : ∀ y zs, ys = y :: zs → y.head?.any isWs = false)
    (st : Ledger M × World) (c : Str) (f : Fail) (h : addEff env inc xs st c = .error f) :
    addEff env inc (xs ++ ys) st c = .error f ∧ effWhy env inc why (xs ++ ys) st c = effWhy env inc why xs st c := by
  induction xs generalizing st c with
  | nil =>
    have h : Ledger.parseChunk env inc st c = .error f := h
    rw [List.nil_append]
    cases ys with
    | nil => exact ⟨h, rfl⟩
    | cons y zs =>
      rw [addEff, effWhy, effWhy, hy y zs rfl]
      simp only [Bool.false_eq_true, if_false, h]
      refine ⟨rfl, ?_⟩
      cases f with
      | err k => rfl
      | panic =>
        have ht := tells_chunk env hi st c
        unfold Tells at ht
        rw [h] at ht
        exact (Option.map_eq_none_iff.1 ht).symm
  | cons x xs ih =>
    rw [List.cons_append, addEff, effWhy, effWhy]
    rw [addEff] at h
    split
    · rename_i hx
      rw [if_pos hx] at h
      exact ih _ _ h
    · rename_i hx
      rw [if_neg hx] at h
      cases h1 : Ledger.parseChunk env inc st c with
      | error g => rw [h1] at h; cases h; exact ⟨rfl, by cases f <;> rfl⟩
      | ok st1 => rw [h1] at h; exact ih _ _ h

theorem addLinesFrom_fails (hi : ∀ st v, Tells (why st v) (inc st v)) (t u : Str) (hu : StartsUnindented u) (st : Ledger M × World) (c : Str) (f : Fail)
    (h : Ledger.addLinesFrom env inc (lines t) st c = .error f) :
    Ledger.addLinesFrom env inc (lines (t ++ '\n' :: u)) st c = .error f ∧
      linesWhy env inc why (lines (t ++ '\n' :: u)) st c = linesWhy env inc why (lines t) st c := by
  rw [addLinesFrom_eff] at h ⊢
  rw [linesWhy_eff, linesWhy_eff, eff_lines_append]
  exact addEff_fails hi _ _ (fun y zs h => hu y zs h) st c f h

end Lines

/-- The scanned files are read alike. -/
theorem sameInc_scanned (env : Env) (P : APath) (file file' : APath → Option Str) (h : ∀ p, p ≠ P → file' p = file p)
    (f k : Nat) :
    SameInc (M := M) False file file' (scanFile (hideFile P file) k) (Ledger.addFromFile env f) (fileWhy env f) := by
  induction f generalizing k with
  | zero =>
    intro l v n _ _
    refine ⟨rfl, rfl, ?_⟩
    intro l1 v1 e
    cases e
  | succ f ih =>
    intro l v n hv hs
    obtain ⟨d, hd⟩ := hs.resolve_left id
    cases k with
    | zero => cases hd
    | succ k =>
      simp only [scanFile] at hd ⊢
      split at hd
      · rename_i hn
        rw [if_pos hn]
        by_cases hp : resolve v.cwd n = P
        · simp only [hideFile, hp, if_true] at hd
          cases hd
        · have e1 : hideFile P file (resolve v.cwd n) = file (resolve v.cwd n) := by simp [hideFile, hp]
          rw [e1] at hd ⊢
          have r1 : v.read n = file (resolve v.cwd n) := by unfold World.read; rw [if_pos hn, hv]
          have r2 : (v.withFiles file').read n = file (resolve v.cwd n) := by
            unfold World.read; rw [if_pos hn]; exact h _ hp
          simp only [Ledger.addFromFile, fileWhy, r1, r2]
          cases hf : file (resolve v.cwd n) with
          | none => rw [hf] at hd; cases hd
          | some s =>
            rw [hf] at hd
            exact sameInc_lines (ih k) (lines s) l (v.cdParent n) [] hv (.inr ⟨d, hd⟩)
      · cases hd

/-- If a file cannot be read to its end, then all files are read alike when something is added to it. -/
theorem sameInc_unfinished (env : Env) (P : APath) (t u : Str) (hu : StartsUnindented u)
    (file file' : APath → Option Str) (ht : file P = some t) (hP : file' P = some (t ++ '\n' :: u))
    (h : ∀ p, p ≠ P → file' p = file p)
    (hno : ∀ k, scanLines (scanFile file k) (lines t) P.dropLast [] = none) (f : Nat) :
    SameInc (M := M) True file file' (fun _ _ => none) (Ledger.addFromFile env f) (fileWhy env f) := by
  induction f with
  | zero =>
    intro l v n _ _
    refine ⟨rfl, rfl, ?_⟩
    intro l1 v1 e
    cases e
  | succ f ih =>
    intro l v n hv _
    by_cases hn : endsInName n = true
    · have r1 : v.read n = file (resolve v.cwd n) := by unfold World.read; rw [if_pos hn, hv]
      have r2 : (v.withFiles file').read n = file' (resolve v.cwd n) := by unfold World.read; rw [if_pos hn]; rfl
      simp only [Ledger.addFromFile, fileWhy, r1, r2]
      by_cases hp : resolve v.cwd n = P
      · rw [hp, ht, hP]
        simp only
        obtain ⟨h1, h2, h3⟩ := sameInc_lines (env := env) ih (lines t) l (v.cdParent n) [] hv (.inl trivial)
        cases hl : Ledger.addLinesFrom env (Ledger.addFromFile env f) (lines t) (l, v.cdParent n) [] with
        | ok st =>
          exfalso
          have := (addLinesFrom_scan env _ (fun file => scanFile file f)
            (fun l v n l1 v1 e => addFromFile_scan env f l v n l1 v1 e) _ _ _ _ st.1 st.2 hl).1
          have e1 : (v.cdParent n).file = file := hv
          have e2 : (v.cdParent n).cwd = P.dropLast := by rw [← hp]; rfl
          rw [e1, e2, hno f] at this
          cases this
        | error g =>
          rw [hl] at h1
          obtain ⟨k1, k2⟩ := addLinesFrom_fails (env := env) (fun st v => tells_file env f st v) t u hu _ _ g h1
          refine ⟨k1, k2.trans h2, ?_⟩
          intro l1 v1 e
          cases e
      · rw [h _ hp]
        cases hf : file (resolve v.cwd n) with
        | none =>
          refine ⟨rfl, rfl, ?_⟩
          intro l1 v1 e
          cases e
        | some s =>
          obtain ⟨h1, h2, h3⟩ := sameInc_lines (env := env) ih (lines s) l (v.cdParent n) [] hv (.inl trivial)
          refine ⟨h1, h2, fun l1 v1 e => ⟨(h3 l1 v1 e).1, ?_⟩⟩
          intro d hd
          cases hd
    · have r1 : v.read n = none := by unfold World.read; rw [if_neg hn]
      have r2 : (v.withFiles file').read n = none := by unfold World.read; rw [if_neg hn]
      simp only [Ledger.addFromFile, fileWhy, r1, r2]
      refine ⟨rfl, trivial, ?_⟩
      intro l1 v1 e
      cases e

/-- C114. A journal that does not load does not load with the same error, in the same words, after any text
was added at its end, beginning with an unindented line. -/
theorem C114_first_mistake (M : Type) [Mag M] (env : Env) (fuel : Nat) (w : World) (path t u : Str) (f : Fail)
    (hs : w.file (resolve w.cwd path) = some t) (hu : StartsUnindented u)
    (hf : (Ledger.fromFile env fuel w path : Res (Ledger M × World)) = .error f) :
    (Ledger.fromFile env fuel (w.write (resolve w.cwd path) (t ++ '\n' :: u)) path : Res (Ledger M × World)) =
      .error f ∧
    fromFileWhy M env fuel (w.write (resolve w.cwd path) (t ++ '\n' :: u)) path = fromFileWhy M env fuel w path := by
  generalize hw' : w.write (resolve w.cwd path) (t ++ '\n' :: u) = w'
  have hcwd : w'.cwd = w.cwd := by rw [← hw']; rfl
  have hself : w'.file (resolve w.cwd path) = some (t ++ '\n' :: u) := by
    rw [← hw']; show (if _ then _ else _) = _; rw [if_pos rfl]
  have hother : ∀ p, p ≠ resolve w.cwd path → w'.file p = w.file p := by
    intro p hp
    rw [← hw']
    show (if p = _ then _ else w.file p) = _
    rw [if_neg hp]
  have hworld : w'.cdParent path = (w.cdParent path).withFiles w'.file := by rw [← hw']; rfl
  cases fuel with
  | zero => cases hf; exact ⟨rfl, rfl⟩
  | succ k =>
    unfold Ledger.fromFile fromFileWhy at *
    by_cases hn : endsInName path = true
    · have r1 : w.read path = some t := by unfold World.read; rw [if_pos hn]; exact hs
      have r2 : w'.read path = some (t ++ '\n' :: u) := by unfold World.read; rw [if_pos hn, hcwd]; exact hself
      simp only [Ledger.addFromFile, r1] at hf
      simp only [Ledger.addFromFile, fileWhy, r1, r2, hworld]
      have key : Ledger.addLinesFrom env (Ledger.addFromFile env k) (lines t)
            ((Ledger.new path : Ledger M), (w.cdParent path).withFiles w'.file) [] = .error f ∧
          linesWhy env (Ledger.addFromFile env k) (fileWhy env k) (lines t)
            ((Ledger.new path : Ledger M), (w.cdParent path).withFiles w'.file) [] =
          linesWhy env (Ledger.addFromFile env k) (fileWhy env k) (lines t)
            ((Ledger.new path : Ledger M), w.cdParent path) [] := by
        by_cases hno : ∀ j, scanLines (scanFile w.file j) (lines t) (resolve w.cwd path).dropLast [] = none
        · obtain ⟨h1, h2, _⟩ := sameInc_lines (M := M) (env := env)
            (sameInc_unfinished env _ t u hu w.file w'.file hs hself hother hno k)
            (lines t) (Ledger.new path) (w.cdParent path) [] rfl (.inl trivial)
          rw [h1, hf]
          exact ⟨rfl, h2⟩
        · obtain ⟨j, hj⟩ := Classical.not_forall.1 hno
          obtain ⟨c, hc⟩ := Option.ne_none_iff_exists'.1 hj
          obtain ⟨c', hc'⟩ := scanLines_hide _ t w.file hs j c hc
          obtain ⟨h1, h2, _⟩ := sameInc_lines (M := M) (env := env)
            (sameInc_scanned env _ w.file w'.file hother k j)
            (lines t) (Ledger.new path) (w.cdParent path) [] rfl (.inr ⟨c', hc'⟩)
          rw [h1, hf]
          exact ⟨rfl, h2⟩
      obtain ⟨k1, k2⟩ := addLinesFrom_fails (env := env) (fun st v => tells_file env k st v) t u hu _ _ f key.1
      exact ⟨k1, k2.trans key.2⟩
    · have r1 : w.read path = none := by unfold World.read; rw [if_neg hn]
      have r2 : w'.read path = none := by unfold World.read; rw [if_neg hn]
      simp only [Ledger.addFromFile, fileWhy, r1, r2] at hf ⊢
      exact ⟨hf, trivial⟩

/-- C114, for the program: any command on a journal that does not load prints the same text on standard error
after any text was added to the journal. -/
theorem C114_same_words (M : Type) [Mag M] (T : Texts) (env : Env) (o : Outside) (args : List Str) (f : Flags)
    (hargs : Flags.parse args = .ok (some f)) (path t u : Str) (hp : f.file.or o.file = some path) (w : World)
    (hs : w.file (resolve w.cwd path) = some t) (hu : StartsUnindented u) (x : Fail)
    (hf : (Ledger.fromFile env o.fuel w path : Res (Ledger M × World)) = .error x) :
    stderrText M T env o args (w.write (resolve w.cwd path) (t ++ '\n' :: u)) = stderrText M T env o args w ∧
      (mainProgram M env o args (w.write (resolve w.cwd path) (t ++ '\n' :: u))).2 =
        (mainProgram M env o args w).2 := by
  obtain ⟨h1, h2⟩ := C114_first_mistake M env o.fuel w path t u x hs hu hf
  constructor
  · unfold stderrText mainWhy executeWhy
    simp only [hargs, whyThen, hp, h1, hf, h2]
  · unfold mainProgram execute
    simp only [hargs, hp, h1, hf]

/-! The hypotheses can be met: an entry names an undeclared account, and the added text has other
mistakes. -/

/-- An undeclared account, after a file that declares one. -/
def exMistake : World := disk [("j", "include k\n2024/01/02 * x\n a 3\n b\n"), ("k", "account a\n")]

theorem exMistake_fails : (Ledger.fromFile (stdEnv june15) 9 exMistake s%"j" : Res (Ledger F64 × World)) =
      .error (.err .validation) ∧
    fromFileWhy F64 (stdEnv june15) 9 exMistake s%"j" =
      some (.validation ⟨none, some s%"the account `b` is not defined in your journal"⟩) := by
  constructor
  · have h : (Ledger.fromFile (stdEnv june15) 9 exMistake s%"j" : Res (Ledger F64 × World)).map (fun _ => ()) =
        fail .validation := by decide +kernel
    cases hl : (Ledger.fromFile (stdEnv june15) 9 exMistake s%"j" : Res (Ledger F64 × World)) with
    | ok r => rw [hl] at h; cases h
    | error f => rw [hl] at h; cases h; rfl
  · decide +kernel

theorem exMistake_more : StartsUnindented s%"account b\ninclude nothing\naccount\n" := by
  intro x xs h
  have h2 : eff (lines s%"account b\ninclude nothing\naccount\n") =
      [s%"account b", s%"include nothing", s%"account"] := by decide +kernel
  rw [h2] at h
  cases h
  decide

example : fromFileWhy F64 (stdEnv june15) 9 (exMistake.write [s%"h", s%"j"]
    (s%"include k\n2024/01/02 * x\n a 3\n b\n" ++ '\n' :: s%"account b\ninclude nothing\naccount\n")) s%"j" =
      some (.validation ⟨none, some s%"the account `b` is not defined in your journal"⟩) :=
  (C114_first_mistake F64 (stdEnv june15) 9 exMistake s%"j" _ _ _ (by decide +kernel) exMistake_more
    exMistake_fails.1).2.trans exMistake_fails.2

end Silverfox
