/-! A C comparison function `int cmp(a, b)` that orders its arguments consistently. -/

namespace Verif

/-- `cmp` behaves like `key a - key b` for some ordered key: the sign flips when the arguments are
swapped and `≤` is transitive.  (Then `cmp a b = 0` is an equivalence relation.) -/
structure TotalPreorder {α : Type} (cmp : α → α → Int) : Prop where
  flip : ∀ a b, cmp a b < 0 ↔ 0 < cmp b a
  trans : ∀ a b c, cmp a b ≤ 0 → cmp b c ≤ 0 → cmp a c ≤ 0

end Verif
