import Verif.Props.Register
import Verif.Proofs.Segs

/-
C125: what the register knows about an entry.
-/

namespace Silverfox

set_option linter.unusedSectionVars false

variable {M : Type} [Mag M]

/-! ### Specification -/

/-- Specification: the last part of an account name, after the last colon. -/
def LastPart (name part : Str) : Prop := ':' ∉ part ∧ (name = part ∨ ∃ front, name = front ++ ':' :: part)

/-- Specification: a payee is put in brackets. -/
def bracketed : Option Str → Str
  | none => []
  | some p => s%"[" ++ p ++ s%"]"

/-! ### Proofs -/

theorem shortName_lastPart (n : Str) : LastPart n (shortName n) := by
  unfold shortName
  have hm := splitOn_mem (d := ':') n
  induction hk : n.length using Nat.strongRecOn generalizing n with
  | _ k ih =>
    by_cases hc : ':' ∈ n
    · obtain ⟨a, b, rfl⟩ := List.append_of_mem hc
      rw [splitOn_append]
      have hb := ih b.length (by rw [← hk, List.length_append, List.length_cons]; omega) b (splitOn_mem b) rfl
      have hne := splitOn_ne_nil ':' b
      rw [List.getLast?_append_of_ne_nil _ hne]
      refine ⟨hb.1, Or.inr ?_⟩
      rcases hb.2 with h | ⟨front, h⟩
      · exact ⟨a, by rw [← h]⟩
      · exact ⟨a ++ ':' :: front, by conv => lhs; rw [h]
                                     simp⟩
    · rw [splitOn_none hc]
      exact ⟨hc, Or.inl rfl⟩

/-- The parts of a row. -/
theorem registerData_parts (env : Env) (x : Entry M) (fmt : Str) (am : Option Str) (r : RegisterData M)
    (h : x.registerData env fmt am = .ok (some r)) :
    r.payee = bracketed x.payee ∧ r.shortFlow = (shortName r.flow.1, shortName r.flow.2) ∧
      r.single = (if !isFocused am r.flow.2 then shortName r.flow.2 else if !isFocused am r.flow.1 then shortName r.flow.1
        else s%"(conversion)") := by
  simp only [Entry.registerData, bind, Except.bind, pure, Except.pure] at h
  split at h
  · cases h
  · split at h
    · cases h
    · split at h
      · cases h
      · simp only [Except.ok.injEq, Option.some.injEq] at h
        subst h
        refine ⟨?_, rfl, rfl⟩
        cases x.payee <;> rfl

/-! ### C125 -/

/-- C125. What the register knows about an entry that changes the accounts in focus: its day in the format asked for, its
status, its description, its payee in brackets, and the accounts the money comes from and goes to (C78), in full and by
the last parts of their names. -/
theorem C125_row (hlt : ∀ m : M, Mag.lt (Mag.zero : M) m = true → Mag.lt m (Mag.zero : M) = false)
    (env : Env) (x : Entry M) (fmt : Str) (am : Option Str) (r : RegisterData M)
    (h : x.registerData env fmt am = .ok (some r)) :
    x.Changes am ∧ env.fmtDate x.date fmt = some r.date ∧ r.status = x.status.toChar ∧ r.description = x.description ∧
      r.payee = bracketed x.payee ∧
      r.flow.1 = named (x.accountsWith fun m => Mag.lt m (Mag.zero : M)) ∧
      r.flow.2 = named (x.accountsWith fun m => Mag.lt (Mag.zero : M) m) ∧
      LastPart r.flow.1 r.shortFlow.1 ∧ LastPart r.flow.2 r.shortFlow.2 := by
  obtain ⟨h1, h2⟩ := registerData_ok env x fmt am (some r) h
  obtain ⟨p1, p2, _⟩ := registerData_parts env x fmt am r h
  have hf := h2.flow hlt
  refine ⟨h1, h2.date, h2.status, h2.description, p1, by rw [hf], by rw [hf], ?_, ?_⟩
  · rw [p2]; exact shortName_lastPart _
  · rw [p2]; exact shortName_lastPart _

/-- C125. The one name that stands for the entry: if one account gains and one loses, it is the last part of the name of
the one that is not in focus; of the one that gains if neither is; `(conversion)` if both are. Missing: entries in which
several accounts gain or lose (see `C125_several_accounts`). -/
theorem C125_other_side_partial (hlt : ∀ m : M, Mag.lt (Mag.zero : M) m = true → Mag.lt m (Mag.zero : M) = false)
    (env : Env) (x : Entry M) (fmt : Str) (am : Option Str) (r : RegisterData M)
    (h : x.registerData env fmt am = .ok (some r)) (gains loses : Str)
    (hg : x.accountsWith (fun m => Mag.lt (Mag.zero : M) m) = [gains])
    (hl : x.accountsWith (fun m => Mag.lt m (Mag.zero : M)) = [loses]) :
    (¬ InFocus am gains → LastPart gains r.single) ∧
    (InFocus am gains → ¬ InFocus am loses → LastPart loses r.single) ∧
    (InFocus am gains → InFocus am loses → r.single = s%"(conversion)") := by
  obtain ⟨_, h2⟩ := registerData_ok env x fmt am (some r) h
  obtain ⟨_, _, p3⟩ := registerData_parts env x fmt am r h
  have hf := h2.flow hlt
  rw [hg, hl] at hf
  have e1 : r.flow.1 = loses := by rw [hf]; rfl
  have e2 : r.flow.2 = gains := by rw [hf]; rfl
  rw [e1, e2] at p3
  have hb : ∀ n, isFocused am n = decide (InFocus am n) := fun n => by
    rw [Bool.eq_iff_iff, isFocused_iff, decide_eq_true_eq]
  rw [hb, hb] at p3
  refine ⟨fun h1 => ?_, fun h1 h2 => ?_, fun h1 h2 => ?_⟩
  · rw [p3, if_pos (by simp [h1])]
    exact shortName_lastPart _
  · rw [p3, if_neg (by simp [h1]), if_pos (by simp [h2])]
    exact shortName_lastPart _
  · rw [p3, if_neg (by simp [h1]), if_neg (by simp [h2])]

/-- The names that stand for the entries of a journal. -/
def singlesOf (text : String) (am : Option Str) : Res (List (Option (Str × Str × Str))) := do
  let l ← loadText F64 text
  l.entries.mapM fun e => do
    let r ← e.registerData (stdEnv june15) l.dateFormat am
    pure (r.map fun r => (r.shortFlow.1, r.shortFlow.2, r.single))

/-- Spending, earning and changing. -/
example : singlesOf "account assets:bank\naccount assets:cash\naccount out:food\naccount in:work
2024/01/02 * food [shop]\n  assets:bank  -5\n  out:food\n2024/01/03 * pay\n  assets:bank  7\n  in:work
2024/01/04 * cash\n  assets:bank  -3 EUR @ 2\n  assets:cash 6\n" none = .ok [some (s%"bank", s%"food", s%"food"),
    some (s%"work", s%"bank", s%"work"), some (s%"bank", s%"cash", s%"(conversion)")] := by decide +kernel

/-- C125 does not hold if several accounts in focus gain: the only account outside is `in:work`, but the name is
`(multiple)`. -/
theorem C125_several_accounts :
    singlesOf "account assets:bank\naccount assets:cash\naccount in:work\n2024/01/03 * pay\n  assets:bank  7
  assets:cash  2\n  in:work\n" none = .ok [some (s%"work", s%"(multiple)", s%"(multiple)")] := by decide +kernel

end Silverfox
