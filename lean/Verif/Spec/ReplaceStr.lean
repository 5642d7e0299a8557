import Verif.Model.CBase
/-! Replacing the occurrences of one text by another. -/

namespace Verif.ReplaceStr

/-- `pat` occurs in `s` at `i`. -/
def Occurs (pat s : List Byte) (i : Nat) : Prop := ∃ a b, s = a ++ (pat ++ b) ∧ a.length = i

/-- `r` is `s` with every occurrence of `ori`, looked for from left to right and not overlapping, replaced by `des`; there
are `n` of them. -/
inductive Replaced (ori des : List Byte) : List Byte → List Byte → Nat → Prop where
  | none (s : List Byte) (h : ∀ i, ¬ Occurs ori s i) : Replaced ori des s s 0
  | one (a b r : List Byte) (n : Nat) (first : ∀ i, i < a.length → ¬ Occurs ori (a ++ (ori ++ b)) i) (rest : Replaced ori des b r n) :
      Replaced ori des (a ++ (ori ++ b)) (a ++ (des ++ r)) (n + 1)

end Verif.ReplaceStr
