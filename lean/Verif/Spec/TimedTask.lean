import Verif.Model.TimedTask
/-! When a history of timed tasks is right.  Of the model only the events are used. -/

namespace Verif.TimedTask

/-- What has been asked for under a number: the period (in microseconds), whether the task is to be
repeated, and the earliest moment of the next start, if one is due. -/
structure Order where
  period : Nat
  persistent : Bool
  due : Option Nat
deriving DecidableEq, Repr

/-- The orders after setting one. -/
def place (o : Nat → Option Order) (id : Nat) (x : Order) : Nat → Option Order :=
  fun i => if i = id then some x else o i

/-- No task starts unless it is due, a start uses up the due date, and only persistent tasks are
scheduled again, with their full period counted from the moment they are scheduled again. -/
def Right : (Nat → Option Order) → List Event → Prop
  | _, [] => True
  | o, .asked t id p ms im :: es =>
    Right (place o id ⟨(ms * 1000).toNat, p, some (t + if im then 0 else (ms * 1000).toNat)⟩) es
  | o, .starts t id :: es =>
    ∃ x d, o id = some x ∧ x.due = some d ∧ d ≤ t ∧ Right (place o id { x with due := none }) es
  | o, .again t id :: es =>
    ∃ x, o id = some x ∧ x.persistent = true ∧ x.due = none ∧
      Right (place o id { x with due := some (t + x.period) }) es

/-- Before anything is asked for. -/
def noOrders : Nat → Option Order := fun _ => none

/-- The numbers under which tasks are asked for. -/
def asks : List Act → List Nat
  | [] => []
  | .post id _ _ _ _ :: as => id :: asks as
  | _ :: as => asks as

/-- No negative delays. -/
def Proper : List Act → Prop
  | [] => True
  | .post _ _ _ ms _ :: as => 0 ≤ ms ∧ Proper as
  | _ :: as => Proper as

end Verif.TimedTask
