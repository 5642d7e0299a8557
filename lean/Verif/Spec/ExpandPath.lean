import Verif.Model.ExpandPath
/-! Paths as the documentation has them (README: "path syntax: wordexp"), and a part of what `wordexp` does, for examples. -/

namespace Verif.ExpandPath

/-- Characters that must be quoted: `|&;<>(){}` and the end of a line. -/
def bad : List Byte := [124, 38, 59, 60, 62, 40, 41, 123, 125, 10]

/-- Reading words: blanks separate them, quotation marks and `\` keep blanks and bad characters.  `q`: the mark that was opened; `w`: the word begun.
Simplified: nothing is substituted, marks inside others are not looked at. -/
def reading : Option Byte → Option (List Byte) → List Byte → Option (List (List Byte))
  | some _, _, [] => none
  | none, none, [] => some []
  | none, some w, [] => some [w]
  | some q, w, c :: s => if c = q then reading none w s else reading (some q) (some (w.getD [] ++ [c])) s
  | none, w, [92] => some [w.getD [] ++ [92]]
  | none, w, 92 :: c :: s => reading none (some (w.getD [] ++ [c])) s
  | none, w, c :: s =>
    if c = 34 ∨ c = 39 then reading (some c) (some (w.getD [])) s
    else if c = 32 ∨ c = 9 then
      match w with
      | none => reading none none s
      | some w => (reading none none s).map (w :: ·)
    else if c ∈ bad then none
    else reading none (some (w.getD [] ++ [c])) s

/-- `wordexp` for texts without `$`, `` ` ``, `~`, `*`, `?`, `[`. -/
def shell (s : List Byte) : Words :=
  match reading none none s with
  | none => .error
  | some l => .words l

/-- The text spells this path: it is the one word that `wordexp` makes of it. -/
def Spells (wordexp : List Byte → Words) (s p : List Byte) : Prop := wordexp s = .words [p]

end Verif.ExpandPath
