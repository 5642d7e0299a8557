import Verif.Model.CBase
/-! Model of `readline.c` and of the loops over files that use it.  A file is the bytes that are left and
the end-of-file flag.  `isspace` is the one of the "C" locale.  Read errors are not modelled. -/

namespace Verif.ReadLine

structure File where
  rest : List Byte
  eof : Bool
deriving DecidableEq, Repr

/-- The first bytes up to a line feed, at most `n`. -/
def takeLine : Nat → List Byte → List Byte × List Byte
  | 0, l => ([], l)
  | _ + 1, [] => ([], [])
  | n + 1, c :: l => if c = 10 then ([c], l) else (c :: (takeLine n l).1, (takeLine n l).2)

/-- C library `fgets` with a buffer of `n` bytes; `none` for NULL.  The buffer is returned as the string
in it: a NUL that was read ends it. -/
def fgets (n : Nat) (f : File) : Option (List Byte × File) :=
  if f.rest = [] then none
  else
    let r := takeLine (n - 1) f.rest
    some (r.1.takeWhile (· != 0), ⟨r.2, f.eof || (decide (r.1.length < n - 1) && r.1.getLast? != some 10)⟩)

/-- C library `isspace`. -/
def isSpace (c : Byte) : Bool := c == 32 || (9 ≤ c && c ≤ 13)

/-- Spaces at the end are cut off. -/
def dropFoot (s : List Byte) : List Byte := (s.reverse.dropWhile isSpace).reverse

/-- readline.c 6-18 `ClearAnnotation`: the string and whether the mark was found. -/
def clearAnnotation (s : List Byte) (mark : Byte) : List Byte × Bool :=
  if mark ∈ s then (dropFoot (s.takeWhile (· != mark)), true) else (s, false)

/-- readline.c 20-35 `ReachedLineEnd`. -/
def reachedLineEnd (f : File) (s : List Byte) : Bool :=
  match s.getLast? with
  | some c => if c = 13 ∨ c = 10 then true else f.eof
  | none => f.eof

/-- readline.c 37-41 `EliminateCRLF`. -/
def eliminateCRLF (s : List Byte) : List Byte := (clearAnnotation (clearAnnotation s 13).1 10).1

/-- readline.c 43-53 `EliminateHeadSpace`. -/
def eliminateHeadSpace (s : List Byte) : List Byte := s.dropWhile isSpace

/-- readline.c 55-65 `EliminateFootSpace`: if all of a string that is not empty is white, the byte before
the buffer is read. -/
def eliminateFootSpace (s : List Byte) : Option (List Byte) :=
  if s = [] then some []
  else if s.all isSpace then none
  else some (dropFoot s)

/-- What a call does: undefined behaviour, `READ_FAILED_OR_END`, `READ_DONE` or `READ_TRUNCATED` with
the buffer; `stuck` if the fuel is used up (never with enough of it). -/
inductive Res where
  | undef
  | stuck
  | fin (f : File)
  | done (s : List Byte) (f : File)
  | truncated (s : List Byte) (f : File)
deriving DecidableEq, Repr

/-- readline.c 83-91: the rest of a line with a comment; `none` for a file that ends. -/
def blackHole : Nat → File → Option (Option File)
  | 0, _ => none
  | fuel + 1, f =>
    match fgets 128 f with
    | none => some none
    | some (s, f') => if reachedLineEnd f' s then some (some f') else blackHole fuel f'

/-- readline.c 67-120 `ReadLine`. -/
def readLine (n : Nat) : Nat → File → Res
  | 0, _ => .stuck
  | fuel + 1, f =>
    match fgets n f with
    | none => .fin { f with eof := true }
    | some (s, f1) =>
      let reached := reachedLineEnd f1 s
      let a := clearAnnotation s 35
      let b := if a.2 then a else clearAnnotation a.1 59
      if b.2 then
        match (if reached then some (some f1) else blackHole (f1.rest.length + 1) f1) with
        | none => .stuck
        | some none => .fin { f1 with rest := [], eof := true }
        | some (some f2) =>
          match eliminateFootSpace b.1 with
          | none => .undef
          | some t =>
            if eliminateHeadSpace t = [] then readLine n fuel f2 else .done (eliminateHeadSpace t) f2
      else if reached then
        match eliminateFootSpace (eliminateCRLF s) with
        | none => .undef
        | some t => if eliminateHeadSpace t = [] then readLine n fuel f1 else .done (eliminateHeadSpace t) f1
      else .truncated s f1

/-- A call with enough fuel: every round reads at least one byte. -/
def call (n : Nat) (f : File) : Res := readLine n (f.rest.length + 1) f

/-- readline.c 122-134 `ReadLine_GoToNextLine`: `none` is undefined behaviour, or no fuel. -/
def goToNextLine : Nat → File → Option File
  | 0, _ => none
  | fuel + 1, f =>
    match call 128 f with
    | .undef => none
    | .stuck => none
    | .fin f' => some f'
    | .done _ f' => some f'
    | .truncated _ f' => goToNextLine fuel f'

/-- The loop over a file: filter.c 103-120, dynamichosts.c 67-82, ipmisc.c 198-234, mmgr.c 373-401 and
435-456.  The lines that are used; lines that are too long are reported and skipped.  `none` is
undefined behaviour, or no fuel. -/
def readAll (n : Nat) : Nat → File → Option (List (List Byte))
  | 0, _ => none
  | fuel + 1, f =>
    match call n f with
    | .undef => none
    | .stuck => none
    | .fin _ => some []
    | .done s f' => (readAll n fuel f').map (s :: ·)
    | .truncated _ f' =>
      match goToNextLine (f'.rest.length + 1) f' with
      | none => none
      | some f'' => readAll n fuel f''

/-- A file read from its start. -/
def readFile (n : Nat) (content : List Byte) : Option (List (List Byte)) := readAll n (content.length + 1) ⟨content, false⟩

end Verif.ReadLine
