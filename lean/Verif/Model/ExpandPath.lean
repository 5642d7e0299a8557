import Verif.Model.ReplaceStr
/-! Model of `ExpandPath` and `ExpandPathTo` (utils.c 917-970), POSIX with `wordexp`.  What `wordexp` makes of a text is a parameter. -/

namespace Verif.ExpandPath
open ReplaceStr

/-- What `wordexp` gives: the words, or an error (then what it was to fill in is as it was before). -/
inductive Words where
  | words (l : List (List Byte))
  | error
deriving DecidableEq, Repr

/-- `undefined`: undefined behaviour; `ok`: the text in the buffer afterwards, 0 was returned.  That a call fails without undefined behaviour does not happen. -/
inductive Res where
  | undefined
  | ok (s : List Byte)
deriving DecidableEq, Repr

/-- utils.c 917-961 `ExpandPath`: in a buffer of `n` bytes.  941-948: after an error `wordfree` gives back what `Result` happens to hold, which was never
set; 950: the first word is looked at even if there is none, `we_wordv[0]` is NULL then. -/
def expandPath (wordexp : List Byte → Words) (n : Nat) (s : List Byte) : Res :=
  match wordexp s with
  | .error => .undefined
  | .words [] => .undefined
  | .words (w :: _) => if w.length + 1 ≤ n then .ok w else .ok s

/-- utils.c 963-970 `ExpandPathTo`. -/
def expandPathTo (wordexp : List Byte → Words) (n : Nat) (s : List Byte) : Res :=
  match replaceStr n (s.take (n - 1)) [34] [] with
  | none => .undefined
  | some t => expandPath wordexp n t

end Verif.ExpandPath
