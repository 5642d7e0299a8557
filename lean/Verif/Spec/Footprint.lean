import Verif.Spec.MContext
import Verif.Spec.Bst
/-! C123: how often the table of waiting queries is swept, and how many queries come in a window of time. -/

namespace Verif.Footprint
open MContext

variable {C : Type}

/-- Queries come within `gap` seconds after the last sweep (or the start), which was at the time `last`; the clock is not set back. -/
def Swept (gap : Int) : Int → List (MContext.Op C) → Prop
  | _, [] => True
  | last, .query now _ :: ops => last ≤ now ∧ now ≤ last + gap ∧ Swept gap last ops
  | last, .response _ :: ops => Swept gap last ops
  | last, .sweep now :: ops => last ≤ now ∧ Swept gap now ops

/-- How many of the queries came from the time `a` to the time `b`. -/
def between (a b : Int) (qs : List (Pending C)) : Nat := qs.countP fun p => a ≤ p.timestamp ∧ p.timestamp ≤ b

end Verif.Footprint
