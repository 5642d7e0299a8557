import Verif.Model.Arr
/-! What a growing array is for its users: a list.  Of the model only commands and replies are used. -/

namespace Verif.Arr

variable {α : Type}

/-- The list with `x` at place `i`; places skipped hold something unspecified. -/
def Put (l l' : List (Option α)) (i : Nat) (x : α) : Prop :=
  l'.length = max l.length (i + 1) ∧ l'[i]? = some (some x) ∧ ∀ j, j ≠ i → j < l.length → l'[j]? = l[j]?

/-- The replies of a list to commands. -/
def Listlike : List (Option α) → List (Cmd α) → List (Reply α) → Prop
  | _, [], rs => rs = []
  | l, .push ok x :: cs, r :: rs =>
    (r = .sub (some l.length) ∧ Listlike (l ++ [some x]) cs rs) ∨ (ok = false ∧ r = .sub none ∧ Listlike l cs rs)
  | l, .set ok i x :: cs, r :: rs =>
    (r = .sub (some i) ∧ ∃ l', Put l l' i x ∧ Listlike l' cs rs) ∨ (ok = false ∧ r = .sub none ∧ Listlike l cs rs)
  | l, .get i :: cs, r :: rs => r = .elem (if 0 ≤ i then l[i.toNat]? else none) ∧ Listlike l cs rs
  | _, .clear :: cs, r :: rs => r = .done ∧ Listlike [] cs rs
  | _, _ :: _, [] => False

end Verif.Arr
