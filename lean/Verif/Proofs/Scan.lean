import Verif.Model.Ledger
import Verif.Proofs.Segs

/-
Which files a journal reads: this does not depend on the ledger, and no journal that loads reads a file
while it is being read.
-/

namespace Silverfox

set_option linter.unusedSectionVars false

variable {M : Type} [Mag M]

/-- Is the item an `include`, and of which file? -/
inductive IncOf (c : Str) : Type where
  | no (h : ∀ r, splitWs c ≠ s%"include" :: r)
  | bad (h : splitWs c = [s%"include"])
  | file (v : Str) (h : ∃ r, splitWs c = s%"include" :: v :: r)

def incOf (c : Str) : IncOf c :=
  match h : splitWs c with
  | [] => .no (by intro r e; rw [h] at e; cases e)
  | kw :: rest =>
    if hk : kw = s%"include" then
      match rest, h with
      | [], h => .bad (by rw [h, hk])
      | v :: r, h => .file v ⟨r, by rw [h, hk]⟩
    else .no (by intro r e; rw [h] at e; cases e; exact hk rfl)

theorem parseChunk_file (env : Env) (inc : Ledger M × World → Str → Res (Ledger M × World))
    (st : Ledger M × World) (c v : Str) (h : ∃ r, splitWs c = s%"include" :: v :: r) :
    Ledger.parseChunk env inc st c = inc st v := by
  obtain ⟨r, h⟩ := h
  unfold Ledger.parseChunk
  split
  · rename_i hc; rw [List.isEmpty_iff.1 hc] at h; cases h
  · rw [h]; rfl

theorem parseChunk_bad (env : Env) (inc : Ledger M × World → Str → Res (Ledger M × World))
    (st : Ledger M × World) (c : Str) (h : splitWs c = [s%"include"]) :
    Ledger.parseChunk env inc st c = fail .parse := by
  unfold Ledger.parseChunk
  split
  · rename_i hc; rw [List.isEmpty_iff.1 hc] at h; cases h
  · rw [h]; rfl

theorem parseChunk_no (env : Env) (l : Ledger M) (c : Str) (h : ∀ r, splitWs c ≠ s%"include" :: r) :
    ∃ r : Res (Ledger M), ∀ inc w, Ledger.parseChunk env inc (l, w) c = r.map fun l' => (l', w) := by
  unfold Ledger.parseChunk
  split
  · exact ⟨.ok l, fun _ _ => rfl⟩
  · cases hs : splitWs c with
    | nil => exact ⟨.ok l, fun _ _ => rfl⟩
    | cons kw rest =>
      simp only
      split
      · refine ⟨l.parseAccount env c, fun _ _ => ?_⟩
        simp only [bind, Except.bind, pure, Except.pure]
        cases l.parseAccount env c <;> rfl
      · split
        · cases rest with
          | nil => exact ⟨fail .parse, fun _ _ => rfl⟩
          | cons v r => exact ⟨.ok { l with currency := v }, fun _ _ => rfl⟩
        · split
          · cases rest with
            | nil => exact ⟨fail .parse, fun _ _ => rfl⟩
            | cons v r => exact ⟨.ok { l with dateFormat := v }, fun _ _ => rfl⟩
          · split
            · rename_i hk; rw [hk] at hs; exact absurd hs (h rest)
            · refine ⟨l.parseEntry env c, fun _ _ => ?_⟩
              simp only [bind, Except.bind, pure, Except.pure]
              cases l.parseEntry env c <;> rfl

/-! ### Scanning -/

/-- The working directory after an item. -/
def scanChunk (inc : APath → Str → Option APath) (cwd : APath) (c : Str) : Option APath :=
  match incOf c with
  | .no _ => some cwd
  | .bad _ => none
  | .file v _ => inc cwd v

/-- The working directory after some lines. -/
def scanLines (inc : APath → Str → Option APath) : List Str → APath → Str → Option APath
  | [], cwd, chunk => scanChunk inc cwd chunk
  | l :: ls, cwd, chunk =>
    match removeComments (trimEnd l) with
    | [] => scanLines inc ls cwd chunk
    | c :: r =>
      if isWs c then scanLines inc ls cwd (chunk ++ '\n' :: c :: r)
      else match scanChunk inc cwd chunk with
        | none => none
        | some cwd => scanLines inc ls cwd (c :: r)

/-- The working directory after a file. -/
def scanFile (file : APath → Option Str) : Nat → APath → Str → Option APath
  | 0, _, _ => none
  | f + 1, cwd, n =>
    if endsInName n then
      match file (resolve cwd n) with
      | none => none
      | some s => scanLines (scanFile file f) (lines s) (resolve cwd n).dropLast []
    else none

theorem scanLines_mono {inc inc' : APath → Str → Option APath} (h : ∀ d n c, inc d n = some c → inc' d n = some c)
    (ls : List Str) (cwd : APath) (chunk : Str) (c : APath) (hs : scanLines inc ls cwd chunk = some c) :
    scanLines inc' ls cwd chunk = some c := by
  have hc : ∀ cwd chunk c, scanChunk inc cwd chunk = some c → scanChunk inc' cwd chunk = some c := by
    intro cwd chunk c hs
    unfold scanChunk at hs ⊢
    split
    · rename_i e; rw [e] at hs; exact hs
    · rename_i e; rw [e] at hs; exact hs
    · rename_i e; rw [e] at hs; exact h _ _ _ hs
  induction ls generalizing cwd chunk with
  | nil => exact hc _ _ _ hs
  | cons l ls ih =>
    simp only [scanLines] at hs ⊢
    cases he : removeComments (trimEnd l) with
    | nil => rw [he] at hs; exact ih _ _ hs
    | cons d r =>
      rw [he] at hs
      simp only at hs ⊢
      split
      · rename_i hw; rw [if_pos hw] at hs; exact ih _ _ hs
      · rename_i hw
        rw [if_neg hw] at hs
        cases h1 : scanChunk inc cwd chunk with
        | none => rw [h1] at hs; cases hs
        | some cwd1 =>
          rw [h1] at hs
          rw [hc _ _ _ h1]
          exact ih _ _ hs

theorem scanFile_mono (file : APath → Option Str) (f k : Nat) (cwd : APath) (n : Str) (c : APath)
    (h : scanFile file f cwd n = some c) : scanFile file (f + k) cwd n = some c := by
  induction f generalizing cwd n c with
  | zero => cases h
  | succ f ih =>
    rw [show f + 1 + k = f + k + 1 by omega]
    simp only [scanFile] at h ⊢
    split
    · rename_i he
      rw [if_pos he] at h
      cases hf : file (resolve cwd n) with
      | none => rw [hf] at h; cases h
      | some s =>
        rw [hf] at h
        exact scanLines_mono (fun d n c hh => ih d n c hh) _ _ _ _ h
    · rename_i he; rw [if_neg he] at h; cases h

/-- The files without one. -/
def hideFile (t : APath) (file : APath → Option Str) : APath → Option Str :=
  fun p => if p = t then none else file p

theorem scanFile_hide (t : APath) (s : Str) (file : APath → Option Str) (ht : file t = some s) (k : Nat)
    (hno : ∀ j < k, scanLines (scanFile file j) (lines s) t.dropLast [] = none) (cwd : APath) (n : Str) (c : APath)
    (h : scanFile file k cwd n = some c) : scanFile (hideFile t file) k cwd n = some c := by
  induction k generalizing cwd n c with
  | zero => cases h
  | succ k ih =>
    simp only [scanFile] at h ⊢
    split
    · rename_i he
      rw [if_pos he] at h
      by_cases hp : resolve cwd n = t
      · rw [hp, ht] at h
        simp only at h
        rw [hno k (by omega)] at h
        cases h
      · have : hideFile t file (resolve cwd n) = file (resolve cwd n) := by simp [hideFile, hp]
        rw [this]
        cases hf : file (resolve cwd n) with
        | none => rw [hf] at h; cases h
        | some u =>
          rw [hf] at h
          exact scanLines_mono (fun d n c hh => ih (fun j hj => hno j (by omega)) d n c hh) _ _ _ _ h
    · rename_i he; rw [if_neg he] at h; cases h

/-- A file that can be read to its end is not read again meanwhile. -/
theorem scanLines_hide (t : APath) (s : Str) (file : APath → Option Str) (ht : file t = some s) (k : Nat) (c : APath)
    (h : scanLines (scanFile file k) (lines s) t.dropLast [] = some c) :
    ∃ c', scanLines (scanFile (hideFile t file) k) (lines s) t.dropLast [] = some c' := by
  -- the least fuel that is enough
  have hmin : ∃ j, j ≤ k ∧ (∃ c, scanLines (scanFile file j) (lines s) t.dropLast [] = some c) ∧
      ∀ i < j, scanLines (scanFile file i) (lines s) t.dropLast [] = none := by
    induction k using Nat.strongRecOn generalizing c with
    | _ k ih =>
      by_cases hex : ∃ i, i < k ∧ ∃ c, scanLines (scanFile file i) (lines s) t.dropLast [] = some c
      · obtain ⟨i, hi, c1, h1⟩ := hex
        obtain ⟨j, hj, h2⟩ := ih i hi c1 h1
        exact ⟨j, by omega, h2⟩
      · refine ⟨k, Nat.le_refl k, ⟨c, h⟩, fun i hi => ?_⟩
        cases hn : scanLines (scanFile file i) (lines s) t.dropLast [] with
        | none => rfl
        | some c1 => exact absurd ⟨i, hi, c1, hn⟩ hex
  obtain ⟨j, hj, ⟨c1, h1⟩, h2⟩ := hmin
  have h3 := scanLines_mono (fun d n c hh => scanFile_hide t s file ht j h2 d n c hh) _ _ _ _ h1
  refine ⟨c1, scanLines_mono (fun d n c hh => ?_) _ _ _ _ h3⟩
  have := scanFile_mono (hideFile t file) j (k - j) d n c hh
  rwa [show j + (k - j) = k by omega] at this

/-! ### Loading and scanning -/

/-- The world with other files. -/
def World.withFiles (w : World) (file : APath → Option Str) : World := { w with file := file }

/-- What is loaded is scanned. -/
theorem addLinesFrom_scan (env : Env) (inc : Ledger M × World → Str → Res (Ledger M × World))
    (sc : (APath → Option Str) → APath → Str → Option APath)
    (h : ∀ l v n l1 v1, inc (l, v) n = .ok (l1, v1) →
      sc v.file v.cwd n = some v1.cwd ∧ v1.file = v.file ∧ v1.canAppend = v.canAppend)
    (ls : List Str) (l : Ledger M) (v : World) (c : Str) (l1 : Ledger M) (v1 : World)
    (hr : Ledger.addLinesFrom env inc ls (l, v) c = .ok (l1, v1)) :
    scanLines (sc v.file) ls v.cwd c = some v1.cwd ∧ v1.file = v.file ∧ v1.canAppend = v.canAppend := by
  have hc : ∀ l v c l1 v1, Ledger.parseChunk env inc (l, v) c = .ok (l1, v1) →
      scanChunk (sc v.file) v.cwd c = some v1.cwd ∧ v1.file = v.file ∧ v1.canAppend = v.canAppend := by
    intro l v c l1 v1 hr
    unfold scanChunk
    cases incOf c with
    | no hn =>
      obtain ⟨r, hn⟩ := parseChunk_no env l c hn
      rw [hn] at hr
      cases r with
      | error f => cases hr
      | ok l2 => cases hr; exact ⟨rfl, rfl, rfl⟩
    | bad hb => rw [parseChunk_bad env inc _ c hb] at hr; cases hr
    | file n hn => rw [parseChunk_file env inc _ c n hn] at hr; exact h _ _ _ _ _ hr
  induction ls generalizing l v c with
  | nil => exact hc _ _ _ _ _ hr
  | cons x ls ih =>
    simp only [Ledger.addLinesFrom] at hr
    simp only [scanLines]
    cases he : removeComments (trimEnd x) with
    | nil => rw [he] at hr; exact ih _ _ _ hr
    | cons d r =>
      rw [he] at hr
      simp only at hr ⊢
      split
      · rename_i hw; rw [if_pos hw] at hr; exact ih _ _ _ hr
      · rename_i hw
        rw [if_neg hw] at hr
        simp only [bind, Except.bind] at hr
        cases h1 : Ledger.parseChunk env inc (l, v) c with
        | error f => rw [h1] at hr; cases hr
        | ok st =>
          obtain ⟨l2, v2⟩ := st
          rw [h1] at hr
          obtain ⟨h2, h3, h4⟩ := hc _ _ _ _ _ h1
          obtain ⟨h5, h6, h7⟩ := ih _ _ _ hr
          rw [h2]
          rw [h3] at h5 h6
          rw [h4] at h7
          exact ⟨h5, h6, h7⟩

theorem addFromFile_scan (env : Env) (f : Nat) (l : Ledger M) (v : World) (n : Str) (l1 : Ledger M) (v1 : World)
    (h : Ledger.addFromFile env f (l, v) n = .ok (l1, v1)) :
    scanFile v.file f v.cwd n = some v1.cwd ∧ v1.file = v.file ∧ v1.canAppend = v.canAppend := by
  induction f generalizing l v n l1 v1 with
  | zero => cases h
  | succ f ih =>
    simp only [Ledger.addFromFile, World.read] at h
    simp only [scanFile]
    split
    · rename_i he
      rw [if_pos he] at h
      cases hf : v.file (resolve v.cwd n) with
      | none => rw [hf] at h; cases h
      | some s =>
        rw [hf] at h
        exact addLinesFrom_scan env _ (fun file => scanFile file f) ih _ _ _ _ _ _ h
    · rename_i he; rw [if_neg he] at h; cases h

/-- Loading with fewer files, if they are enough for the scan. -/
theorem addLinesFrom_fewer (env : Env) (inc inc' : Ledger M × World → Str → Res (Ledger M × World))
    (file file' : APath → Option Str) (sc : APath → Str → Option APath)
    (h : ∀ l v n l1 v1 c, v.file = file → inc (l, v) n = .ok (l1, v1) → sc v.cwd n = some c →
      c = v1.cwd ∧ v1.file = file ∧ inc' (l, v.withFiles file') n = .ok (l1, v1.withFiles file'))
    (ls : List Str) (l : Ledger M) (v : World) (c : Str) (l1 : Ledger M) (v1 : World) (d : APath) (hv : v.file = file)
    (hr : Ledger.addLinesFrom env inc ls (l, v) c = .ok (l1, v1)) (hs : scanLines sc ls v.cwd c = some d) :
    d = v1.cwd ∧ v1.file = file ∧
      Ledger.addLinesFrom env inc' ls (l, v.withFiles file') c = .ok (l1, v1.withFiles file') := by
  have hc : ∀ l v c l1 v1 d, v.file = file → Ledger.parseChunk env inc (l, v) c = .ok (l1, v1) →
      scanChunk sc v.cwd c = some d → d = v1.cwd ∧ v1.file = file ∧
        Ledger.parseChunk env inc' (l, v.withFiles file') c = .ok (l1, v1.withFiles file') := by
    intro l v c l1 v1 d hv hr hs
    unfold scanChunk at hs
    cases hi : incOf c with
    | no hn =>
      rw [hi] at hs
      obtain ⟨r, hn⟩ := parseChunk_no env l c hn
      rw [hn] at hr ⊢
      cases r with
      | error f => cases hr
      | ok l2 => cases hr; cases hs; exact ⟨rfl, hv, rfl⟩
    | bad hb => rw [parseChunk_bad env inc _ c hb] at hr; cases hr
    | file n hn =>
      rw [hi] at hs
      rw [parseChunk_file env inc _ c n hn] at hr
      rw [parseChunk_file env inc' _ c n hn]
      exact h _ _ _ _ _ _ hv hr hs
  induction ls generalizing l v c with
  | nil => exact hc _ _ _ _ _ _ hv hr hs
  | cons x ls ih =>
    simp only [Ledger.addLinesFrom] at hr ⊢
    simp only [scanLines] at hs
    cases he : removeComments (trimEnd x) with
    | nil => rw [he] at hr hs; exact ih _ _ _ hv hr hs
    | cons y r =>
      rw [he] at hr hs
      simp only at hr hs ⊢
      split
      · rename_i hw; rw [if_pos hw] at hr hs; exact ih _ _ _ hv hr hs
      · rename_i hw
        rw [if_neg hw] at hr hs
        simp only [bind, Except.bind] at hr ⊢
        cases h1 : Ledger.parseChunk env inc (l, v) c with
        | error f => rw [h1] at hr; cases hr
        | ok st =>
          obtain ⟨l2, v2⟩ := st
          rw [h1] at hr
          cases h2 : scanChunk sc v.cwd c with
          | none => rw [h2] at hs; cases hs
          | some d1 =>
            rw [h2] at hs
            obtain ⟨rfl, h3, h4⟩ := hc _ _ _ _ _ _ hv h1 h2
            rw [h4]
            exact ih _ _ _ h3 hr hs

theorem addFromFile_fewer (env : Env) (file file' : APath → Option Str)
    (hsub : ∀ p t, file' p = some t → file p = some t) (f : Nat) (l : Ledger M) (v : World) (n : Str)
    (l1 : Ledger M) (v1 : World) (c : APath) (hv : v.file = file)
    (h : Ledger.addFromFile env f (l, v) n = .ok (l1, v1)) (hs : scanFile file' f v.cwd n = some c) :
    c = v1.cwd ∧ v1.file = file ∧
      Ledger.addFromFile env f (l, v.withFiles file') n = .ok (l1, v1.withFiles file') := by
  induction f generalizing l v n l1 v1 c with
  | zero => cases h
  | succ f ih =>
    simp only [Ledger.addFromFile, World.read] at h ⊢
    simp only [scanFile] at hs
    by_cases he : endsInName n = true
    · rw [if_pos he] at h hs ⊢
      simp only [World.withFiles] at *
      cases hf : file' (resolve v.cwd n) with
      | none => rw [hf] at hs; cases hs
      | some s =>
        rw [hf] at hs
        rw [hv, hsub _ _ hf] at h
        exact addLinesFrom_fewer env _ _ file file' _ ih _ _ (v.cdParent n) _ _ _ _ hv h hs
    · rw [if_neg he] at h; cases h

/-- Loading with more files. -/
theorem addLinesFrom_more (env : Env) (inc inc' : Ledger M × World → Str → Res (Ledger M × World))
    (file file' : APath → Option Str)
    (h : ∀ l v n l1 v1, v.file = file → inc (l, v) n = .ok (l1, v1) →
      v1.file = file ∧ inc' (l, v.withFiles file') n = .ok (l1, v1.withFiles file'))
    (ls : List Str) (l : Ledger M) (v : World) (c : Str) (l1 : Ledger M) (v1 : World) (hv : v.file = file)
    (hr : Ledger.addLinesFrom env inc ls (l, v) c = .ok (l1, v1)) :
    v1.file = file ∧
      Ledger.addLinesFrom env inc' ls (l, v.withFiles file') c = .ok (l1, v1.withFiles file') := by
  have hc : ∀ l v c l1 v1, v.file = file → Ledger.parseChunk env inc (l, v) c = .ok (l1, v1) →
      v1.file = file ∧ Ledger.parseChunk env inc' (l, v.withFiles file') c = .ok (l1, v1.withFiles file') := by
    intro l v c l1 v1 hv hr
    cases hi : incOf c with
    | no hn =>
      obtain ⟨r, hn⟩ := parseChunk_no env l c hn
      rw [hn] at hr ⊢
      cases r with
      | error f => cases hr
      | ok l2 => cases hr; exact ⟨hv, rfl⟩
    | bad hb => rw [parseChunk_bad env inc _ c hb] at hr; cases hr
    | file n hn =>
      rw [parseChunk_file env inc _ c n hn] at hr
      rw [parseChunk_file env inc' _ c n hn]
      exact h _ _ _ _ _ hv hr
  induction ls generalizing l v c with
  | nil => exact hc _ _ _ _ _ hv hr
  | cons x ls ih =>
    simp only [Ledger.addLinesFrom] at hr ⊢
    cases he : removeComments (trimEnd x) with
    | nil => rw [he] at hr; exact ih _ _ _ hv hr
    | cons y r =>
      rw [he] at hr
      simp only at hr ⊢
      split
      · rename_i hw; rw [if_pos hw] at hr; exact ih _ _ _ hv hr
      · rename_i hw
        rw [if_neg hw] at hr
        simp only [bind, Except.bind] at hr ⊢
        cases h1 : Ledger.parseChunk env inc (l, v) c with
        | error f => rw [h1] at hr; cases hr
        | ok st =>
          obtain ⟨l2, v2⟩ := st
          rw [h1] at hr
          obtain ⟨h3, h4⟩ := hc _ _ _ _ _ hv h1
          rw [h4]
          exact ih _ _ _ h3 hr

theorem addFromFile_more (env : Env) (file file' : APath → Option Str)
    (hsub : ∀ p t, file p = some t → file' p = some t) (f : Nat) (l : Ledger M) (v : World) (n : Str)
    (l1 : Ledger M) (v1 : World) (hv : v.file = file) (h : Ledger.addFromFile env f (l, v) n = .ok (l1, v1)) :
    v1.file = file ∧ Ledger.addFromFile env f (l, v.withFiles file') n = .ok (l1, v1.withFiles file') := by
  induction f generalizing l v n l1 v1 with
  | zero => cases h
  | succ f ih =>
    simp only [Ledger.addFromFile, World.read] at h ⊢
    by_cases he : endsInName n = true
    · rw [if_pos he] at h ⊢
      simp only [World.withFiles] at *
      rw [hv] at h
      cases hf : file (resolve v.cwd n) with
      | none => rw [hf] at h; cases h
      | some s =>
        rw [hf] at h
        rw [hsub _ _ hf]
        exact addLinesFrom_more env _ _ file file' ih _ _ (v.cdParent n) _ _ _ hv h
    · rw [if_neg he] at h; cases h

/-- Loading a journal whose own file is then changed: its old lines do the same. -/
theorem fromFile_lines_again (env : Env) (f : Nat) (w : World) (path : Str) (s : Str) (l : Ledger M) (w1 : World)
    (hs : w.file (resolve w.cwd path) = some s)
    (h : Ledger.addLinesFrom env (Ledger.addFromFile env f) (lines s) (Ledger.new path, w.cdParent path) [] = .ok (l, w1))
    (file' : APath → Option Str) (hother : ∀ p, p ≠ resolve w.cwd path → file' p = w.file p) :
    Ledger.addLinesFrom env (Ledger.addFromFile env f) (lines s)
      (Ledger.new path, (w.cdParent path).withFiles file') [] = .ok (l, w1.withFiles file') := by
  have h1 := (addLinesFrom_scan env _ (fun file => scanFile file f)
    (fun l v n l1 v1 hh => addFromFile_scan env f l v n l1 v1 hh) _ _ _ _ _ _ h).1
  obtain ⟨c, h2⟩ := scanLines_hide _ s w.file hs f _ h1
  obtain ⟨_, _, h3⟩ := addLinesFrom_fewer env _ (Ledger.addFromFile env f) w.file
    (hideFile (resolve w.cwd path) w.file) _
    (fun l v n l1 v1 c hv hr hc => addFromFile_fewer env w.file (hideFile (resolve w.cwd path) w.file)
      (fun p t hp => by unfold hideFile at hp; split at hp <;> first | cases hp | exact hp) f l v n l1 v1 c hv hr hc)
    _ _ (w.cdParent path) _ _ _ _ rfl h h2
  have h4 := (addLinesFrom_more env _ (Ledger.addFromFile env f) (hideFile (resolve w.cwd path) w.file) file'
    (fun l v n l1 v1 hv hr => addFromFile_more env (hideFile (resolve w.cwd path) w.file) file'
      (fun p t hp => by
        unfold hideFile at hp
        split at hp
        · cases hp
        · rename_i hne; rw [hother p hne]; exact hp)
      f l v n l1 v1 hv hr)
    _ _ ((w.cdParent path).withFiles _) _ _ _ rfl h3).2
  exact h4

/-! ### Effective lines -/

/-- The lines that say something. -/
def eff (ls : List Str) : List Str := (ls.map fun l => removeComments (trimEnd l)).filter fun l => !l.isEmpty

theorem eff_append (a b : List Str) : eff (a ++ b) = eff a ++ eff b := by simp [eff]

/-- `add_from_str` on such lines. -/
def addEff (env : Env) (inc : Ledger M × World → Str → Res (Ledger M × World)) :
    List Str → Ledger M × World → Str → Res (Ledger M × World)
  | [], st, chunk => Ledger.parseChunk env inc st chunk
  | l :: ls, st, chunk =>
    if l.head?.any isWs then addEff env inc ls st (chunk ++ '\n' :: l)
    else do
      let st ← Ledger.parseChunk env inc st chunk
      addEff env inc ls st l

theorem addLinesFrom_eff (env : Env) (inc : Ledger M × World → Str → Res (Ledger M × World)) (ls : List Str)
    (st : Ledger M × World) (c : Str) : Ledger.addLinesFrom env inc ls st c = addEff env inc (eff ls) st c := by
  induction ls generalizing st c with
  | nil => rfl
  | cons l ls ih =>
    simp only [Ledger.addLinesFrom]
    cases he : removeComments (trimEnd l) with
    | nil =>
      have : eff (l :: ls) = eff ls := by simp [eff, he]
      rw [this]; exact ih st c
    | cons d r =>
      have : eff (l :: ls) = (d :: r) :: eff ls := by simp [eff, he]
      rw [this, addEff]
      simp only [List.head?_cons, Option.any_some, ih]
      rfl

theorem eff_linesOf (xs : List Str) : eff (linesOf xs) = eff xs := by
  induction xs with
  | nil => rfl
  | cons x xs ih =>
    cases xs with
    | nil =>
      unfold linesOf
      split
      · rename_i h; subst h; rfl
      · rfl
    | cons y ys =>
      rw [linesOf_cons]
      show eff ([stripCr x] ++ linesOf (y :: ys)) = eff ([x] ++ y :: ys)
      rw [eff_append, ih, eff_append]
      congr 1
      simp [eff, stripCr_trimEnd]

theorem eff_lines (s : Str) : eff (lines s) = eff (segs s) := by rw [lines_segs, eff_linesOf]

theorem eff_lines_append (s t : Str) : eff (lines (s ++ '\n' :: t)) = eff (lines s) ++ eff (lines t) := by
  rw [eff_lines, eff_lines, eff_lines, segs, splitOn_append, eff_append]

end Silverfox
