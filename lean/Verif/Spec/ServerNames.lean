import Verif.Model.ServerNames
/-! When a message of the program would name servers whose names are no longer there, told from what happened before. -/

namespace Verif.ServerNames.Spec
open Groups (Proto)

/-- The events that start a group, in order: the kind of the group and the file it is from, if any. -/
def started : List Ev → List (Proto × Option Nat)
  | [] => []
  | .start p _ :: es => (p, none) :: started es
  | .startFile f p _ :: es => (p, some f) :: started es
  | _ :: es => started es

/-- The event has the servers or proxies of group `i`, which is of kind `p`, named in a message: a worker gets an error or
an empty datagram; or, if messages for debugging are on, connections are made. -/
def Names (debug : Bool) (i : Nat) (p : Proto) : Ev → Prop
  | .recv j n => j = i ∧ p = .udp ∧ n ≤ 0
  | .connect j _ => j = i ∧ p = .tcp ∧ debug = true
  | _ => False

/-- Somewhere in the history the names of a group from a file are needed when the reading of the file has already ended. -/
def Gone (debug : Bool) (es : List Ev) : Prop :=
  ∃ before e after i p f, es = before ++ e :: after ∧ (started before)[i]? = some (p, some f) ∧ Ev.readEnd f ∈ before ∧ Names debug i p e

end Verif.ServerNames.Spec
