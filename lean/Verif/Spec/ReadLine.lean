import Verif.Model.CBase
/-! Lines of a text file and what is to be seen of them. -/

namespace Verif.ReadLine

/-- White space: tab, line feed, vertical tab, form feed, carriage return, space. -/
def whites : List Byte := [9, 10, 11, 12, 13, 32]

/-- `s` consists of `t` with white space around; `t` does not begin or end with it. -/
def Bare (s t : List Byte) : Prop :=
  ∃ a b, s = a ++ t ++ b ∧ (∀ c ∈ a, c ∈ whites) ∧ (∀ c ∈ b, c ∈ whites) ∧
    (∀ c, t.head? = some c → c ∉ whites) ∧ (∀ c, t.getLast? = some c → c ∉ whites)

/-- The text of a line before a comment, which starts with `#` or `;`. -/
def NoComment (s t : List Byte) : Prop :=
  (∀ c ∈ t, c ≠ 35 ∧ c ≠ 59) ∧ (s = t ∨ ∃ r, s = t ++ 35 :: r ∨ s = t ++ 59 :: r)

/-- What is to be seen of a line. -/
def Visible (s t : List Byte) : Prop := ∃ u, NoComment s u ∧ Bare u t

/-- What is to be seen of these lines, in order: all of them which are not blank.  A line may be missing
if it does not fit a buffer of `n` bytes with a line feed and a NUL. -/
inductive Seen (n : Nat) : List (List Byte) → List (List Byte) → Prop
  | nil : Seen n [] []
  | blank {s : List Byte} {ss ts : List (List Byte)} : Visible s [] → Seen n ss ts → Seen n (s :: ss) ts
  | line {s t : List Byte} {ss ts : List (List Byte)} : Visible s t → t ≠ [] → Seen n ss ts → Seen n (s :: ss) (t :: ts)
  | long {s : List Byte} {ss ts : List (List Byte)} : n < s.length + 2 → Seen n ss ts → Seen n (s :: ss) ts

/-- The bytes of a file with these lines, each one ended by a line feed, and a last one that is not. -/
def text (ss : List (List Byte)) (last : List Byte) : List Byte := ss.flatMap (· ++ [10]) ++ last

end Verif.ReadLine
