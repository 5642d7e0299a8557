import Verif.Model.StableBuffer
/-! What stable storage is for its users: separate pieces that keep their contents.  Of the model only
commands and replies are used. -/

namespace Verif.StableBuffer

/-- The replies of independent pieces of storage: each piece is changed by its owner only. -/
def Stable : List (List (Option Byte)) → List Cmd → List Reply → Prop
  | _, [], rs => rs = []
  | ps, .add ok d _ :: cs, r :: rs =>
    (r = .got true ∧ Stable (ps ++ [d.map some]) cs rs) ∨ (ok = false ∧ r = .got false ∧ Stable ps cs rs)
  | ps, .room ok n _ :: cs, r :: rs =>
    (r = .got true ∧ ∃ p : List (Option Byte), p.length = n ∧ Stable (ps ++ [p]) cs rs) ∨
    (ok = false ∧ r = .got false ∧ Stable ps cs rs)
  | ps, .put h i x :: cs, r :: rs => r = .done ∧ ∃ p, ps[h]? = some p ∧ Stable (ps.set h (p.set i (some x))) cs rs
  | ps, .get h :: cs, r :: rs => ∃ p, ps[h]? = some p ∧ r = .bytes p ∧ Stable ps cs rs
  | _, _ :: _, [] => False

/-- The users follow the rules: they write and read only places they were given, inside their bounds.
`lens` are the lengths of the places given so far; with failing allocations a place may be missing, so
this is about runs in which memory is found. -/
def Obeys : List Nat → List Cmd → Prop
  | _, [] => True
  | ls, .add ok d _ :: cs => ok = true ∧ Obeys (ls ++ [d.length]) cs
  | ls, .room ok n _ :: cs => ok = true ∧ Obeys (ls ++ [n]) cs
  | ls, .put h i _ :: cs => (∃ n, ls[h]? = some n ∧ i < n) ∧ Obeys ls cs
  | ls, .get h :: cs => (∃ n, ls[h]? = some n) ∧ Obeys ls cs

/-- The sizes asked for. -/
def sizes : List Cmd → List Nat
  | [] => []
  | .add _ d _ :: cs => d.length :: sizes cs
  | .room _ n _ :: cs => n :: sizes cs
  | _ :: cs => sizes cs

end Verif.StableBuffer
