import Verif.Model.CBase
/-! Model of `CountSubStr`, `ReplaceStr` and `ReplaceStr_WithLengthChecking` (utils.c 1080-1139).

A C string is the list of its bytes before the terminator.  `none` is undefined behaviour (a write outside the buffer),
or a loop that does not end. -/

namespace Verif.ReplaceStr

/-- `strstr(s, pat)`: where the first occurrence starts. -/
def strstr (pat : List Byte) : List Byte → Option Nat
  | [] => if pat = [] then some 0 else none
  | c :: s => if pat.isPrefixOf (c :: s) then some 0 else (strstr pat s).map (· + 1)

/-- utils.c 1080-1095 `CountSubStr`, at most `n` rounds. -/
def countLoop (pat : List Byte) : Nat → List Byte → Option Nat
  | 0, _ => none
  | n + 1, s =>
    match strstr pat s with
    | none => some 0
    | some i => (countLoop pat n (s.drop (i + pat.length))).map (· + 1)

/-- utils.c 1080-1095 `CountSubStr`. -/
def countSub (pat s : List Byte) : Option Nat := countLoop pat (s.length + 1) s

/-- utils.c 1097-1116 `ReplaceStr`, at most `n` rounds, in a buffer of `cap` bytes: `done` is the text before `Itr`, `s` the
text from there on.  The `memmove` writes up to the terminator of the new text. -/
def replaceLoop (cap : Nat) (ori des : List Byte) : Nat → List Byte → List Byte → Option (List Byte)
  | 0, _, _ => none
  | n + 1, done, s =>
    match strstr ori s with
    | none => some (done ++ s)
    | some i =>
      let rest := s.drop (i + ori.length)
      if done.length + i + des.length + rest.length + 1 ≤ cap then replaceLoop cap ori des n (done ++ (s.take i ++ des)) rest
      else none

/-- utils.c 1097-1116 `ReplaceStr`. -/
def replaceStr (cap : Nat) (s ori des : List Byte) : Option (List Byte) := replaceLoop cap ori des (s.length + 1) [] s

/-- utils.h 141-142 `TOTAL_SPACE_NEEDED`: computed without sign and then converted to `int`, which gives the difference also
when `des` is the shorter one. -/
def spaceNeeded (s ori des : List Byte) (n : Nat) : Int := s.length + 1 + ((des.length : Int) - ori.length) * n

/-- utils.c 1118-1139 `ReplaceStr_WithLengthChecking`: `left` is the length given, `cap` the bytes there really are.  Inner
`none`: NULL, nothing changed. -/
def replaceChecked (cap : Nat) (left : Int) (s ori des : List Byte) : Option (Option (List Byte)) :=
  match countSub ori s with
  | none => none
  | some n => if spaceNeeded s ori des n > left then some none else (replaceStr cap s ori des).map some

end Verif.ReplaceStr
