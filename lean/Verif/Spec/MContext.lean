import Verif.Model.MContext
/-! Vocabulary for stating the properties of the pending-query table. -/

namespace Verif.MContext
open Verif.Bst

variable {C : Type}

/-- The queries waiting for a response. -/
def waiting (c : Table C) : List (Pending C) := c.root.toList.map (·.2)

/-- The queries sent upstream in a history, with the time stamp they get. -/
def queriesOf : List (Op C) → List (Pending C)
  | [] => []
  | .query now p :: ops => { p with timestamp := now } :: queriesOf ops
  | _ :: ops => queriesOf ops

/-- The clients that got a response, as recorded by the outputs. -/
def deliveredOf : List (Out C) → List (Pending C)
  | [] => []
  | .delivered p :: os => p :: deliveredOf os
  | _ :: os => deliveredOf os

/-- The queries reported as timed out. -/
def timedOutOf : List (Out C) → List (Pending C)
  | [] => []
  | .timedOut ps :: os => ps ++ timedOutOf os
  | _ :: os => timedOutOf os

/-- Same ID implies that the hashes are less than `2^31` apart. -/
def Close (p q : Pending C) : Prop :=
  p.id = q.id → ((p.hash.toNat : Int) - q.hash.toNat).natAbs < 2 ^ 31

/-- The full claim C31: whenever a query with the response's ID and name hash is waiting, the
response is delivered to some such query. -/
def ResponseFound : Prop :=
  ∀ (ops : List (Op Nat)) (r p : Pending Nat), p ∈ waiting (run State.init ops).1 →
    p.id = r.id → p.hash = r.hash →
    ∃ q, (step (run State.init ops).1 (.response r)).2 = .delivered q

/-- The strong form of C30: responses are only delivered to clients that asked for the same
name. -/
def DeliveredSameName : Prop :=
  ∀ (ops : List (Op Nat)) (r q : Pending Nat), (∀ p ∈ queriesOf ops, p.hash = bkdrHash p.domain) →
    r.hash = bkdrHash r.domain →
    (step (run State.init ops).1 (.response r)).2 = .delivered q → q.domain = r.domain

end Verif.MContext
