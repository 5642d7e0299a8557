import Verif.Model.Bst
/-! What a multiset with handles should do, independent of the tree. -/

namespace Verif.Bst
variable {α : Type}

/-- The elements that are live after one more event, given those live before. -/
def liveStep (live : List (Nat × α)) : Event α → List (Nat × α)
  | .added a x => (a, x) :: live
  | .deleted a => live.filter (fun e => e.1 ≠ a)
  | .reset => []

/-- The elements added and not yet deleted after a history. -/
def live (evs : List (Event α)) : List (Nat × α) := evs.foldl liveStep []

end Verif.Bst
