import Verif.Model.SocketPool
/-! What a set of sockets should do. -/

namespace Verif.SocketPool
variable {D : Type}

/-- Calls that change the set. -/
inductive Op (D : Type) where
  | add (s : Nat) (d : Option D)
  | del (s : Nat)

/-- The sockets of the set with their data, after one more call. -/
def memberStep (l : List (Nat × Option D)) : Op D → List (Nat × Option D)
  | .add s d => (s, d) :: l
  | .del s => l.filter (fun e => e.1 ≠ s)

/-- The sockets of the set with their data, after a history of calls (oldest first). -/
def members (ops : List (Op D)) : List (Nat × Option D) := ops.foldl memberStep []

/-- No socket is added that is in the set already, and none that is too large for `select`. -/
def Legal : List (Nat × Option D) → List (Op D) → Prop
  | _, [] => True
  | l, op :: ops => (match op with | .add s _ => s ∉ l.map (·.1) ∧ s < 1024 | .del _ => True) ∧ Legal (memberStep l op) ops

/-- The calls one after the other; `none`: undefined behaviour. -/
def run (p : Puller D) : List (Op D) → Option (Puller D)
  | [] => some p
  | .add s d :: ops => match p.add s d with | none => none | some p => run p ops
  | .del s :: ops => run (p.del s) ops

end Verif.SocketPool
