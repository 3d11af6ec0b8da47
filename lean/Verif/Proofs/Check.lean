import Verif.Model.Env

/-
Deciding statements about outcomes, for the concrete cases shown beside the theorems.
-/

namespace Silverfox

instance decExistsOk {α : Type} (r : Res α) (P : α → Prop) [DecidablePred P] :
    Decidable (∃ a, r = .ok a ∧ P a) :=
  match r with
  | .ok a =>
    if h : P a then .isTrue ⟨a, rfl, h⟩
    else .isFalse (by rintro ⟨b, hb, hp⟩; cases hb; exact h hp)
  | .error _ => .isFalse (by rintro ⟨b, hb, _⟩; cases hb)

instance decExistsOk' {α : Type} (r : Res α) : Decidable (∃ a, r = .ok a) :=
  match r with
  | .ok a => .isTrue ⟨a, rfl⟩
  | .error _ => .isFalse (by rintro ⟨b, hb⟩; cases hb)

end Silverfox
