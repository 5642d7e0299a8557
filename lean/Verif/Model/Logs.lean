import Verif.Model.CBase
/-! Model of the log file and its rotation in `logs.c`.  Writing to an open file always succeeds; the lock makes each
call of `Log_Print` one step; the lengths stay below 2^31. -/

namespace Verif.Logs

/-- What is found under the name of the log file with a number appended. -/
inductive Slot where
  | absent
  | file (content : List Byte) (readable : Bool)
deriving DecidableEq, Repr

/-- logs.c 13-17, 104: the log file, the numbered files, whether `LogFile` is open, `CurrentLength`, `CurrentNumber`. -/
structure State where
  cur : List Byte
  old : Nat → Slot
  len : Nat
  number : Nat

/-- `ThresholdLength`, and how many digits a number may have for the name to fit into `FileRenamed`
(logs.c 94, 108-114: 264 bytes for the path, a dot, the number and the terminator). -/
structure Cfg where
  threshold : Nat
  digits : Nat

/-- What the system does when the file is rotated: whether `rename` works and whether the file can be opened anew. -/
structure Io where
  rename : Bool
  reopen : Bool

/-- logs.c 29-78 `Log_Init` for a log file with this content (empty if there is none). -/
def init (content : List Byte) (old : Nat → Slot) : State := ⟨content, old, content.length, 0⟩

/-- utils.c 656-666 `FileIsReadable`. -/
def readable : Slot → Bool
  | .file _ r => r
  | .absent => false

/-- logs.c 100-118: the numbers are tried one after the other; `none`: the name does not fit any more. -/
def freeNumber (old : Nat → Slot) (max n : Nat) : Option Nat :=
  if n + 1 > max then none
  else if readable (old (n + 1)) then freeNumber old max (n + 1) else some (n + 1)
termination_by max - n

/-- logs.c 90-137 `CheckLength`; `none`: it returns leaving `LogFile` closed or NULL, and logs.c 158 prints to it. -/
def checkLength (cfg : Cfg) (io : Io) (st : State) : Option State :=
  if st.len < cfg.threshold then some st
  else match freeNumber st.old (10 ^ cfg.digits - 1) st.number with
    | none => none
    | some n =>
      if io.rename && io.reopen then
        some ⟨[], fun k => if k = n then .file st.cur true else st.old k, 0, n⟩
      else none

/-- logs.c 139-182 `Log_Print` with the log file open: date, kind and message are the bytes `m`. -/
def print (cfg : Cfg) (io : Io) (st : State) (m : List Byte) : Option State :=
  match checkLength cfg io st with
  | none => none
  | some st => some { st with cur := st.cur ++ m, len := st.len + m.length }

/-- Messages one after the other. -/
def run (cfg : Cfg) (st : State) : List (Io × List Byte) → Option State
  | [] => some st
  | (io, m) :: r => match print cfg io st m with | none => none | some st => run cfg st r

end Verif.Logs
