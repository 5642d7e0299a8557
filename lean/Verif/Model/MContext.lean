import Verif.Model.CBase
import Verif.Model.Bst
/-!
Model of `mcontext.c`: the table of queries sent upstream and not yet answered, as used by
`udpm.c` (one table per UDP upstream module, every access under `m->Lock`).
-/

namespace Verif.MContext
open Verif.Bst

variable {C : Type}

/-- The parts of a stored `MsgContext` (iheader.h 13-36) this module uses: the 16-bit query ID at
the start of the DNS entity, the hash of the lower-cased name, the time stamp, and everything that
identifies the asking client (`BackAddress`, `SendBackSocket`, …), kept abstract as `client`. -/
structure Pending (C : Type) where
  id : UInt16
  hash : UInt32
  domain : List Byte
  qtype : Nat
  client : C
  timestamp : Int
  deriving Repr, DecidableEq

/-- mcontext.c 117-130 `ModuleContextCompare`: by query ID, then by the `uint32_t` difference of
the hashes converted to `int`. -/
def compare (p q : Pending C) : Int :=
  if p.id ≠ q.id then (p.id.toNat : Int) - q.id.toNat else asInt32 (p.hash - q.hash)

abbrev Table (C : Type) := State (Pending C)

/-- mcontext.c 58-71 `ModuleContext_Add`: stamp with the current time and insert. -/
def add (c : Table C) (now : Int) (p : Pending C) : Table C :=
  (State.add compare c { p with timestamp := now }).2

/-- mcontext.c 83-115 `ModuleContext_GenAnswerHeaderAndRemove`: look the response up; on success
the stored header (the asking client) is handed out and the entry deleted.  `none` is the return
value -60.  (The response's `EntityLength` and `EDNSEnabled` are kept by the caller.) -/
def genAnswerHeaderAndRemove (c : Table C) (r : Pending C) : Option (Pending C) × Table C :=
  match State.search compare c r with
  | none => (none, c)
  | some (a, p) => (some p, c.delete a)

/-- mcontext.c 6-17 `ModuleContext_Sweep_Collect`: older than two seconds. -/
def expired (now : Int) (p : Pending C) : Bool := now - p.timestamp > 2

/-- mcontext.c 19-56 `ModuleContext_Sweep`: collect all expired entries in traversal order, then
delete them one after the other; the call-backs get them in that order.
Simplification: one clock reading for the whole traversal. -/
def sweep (c : Table C) (now : Int) : List (Pending C) × Table C :=
  let old := c.root.preorder.filter (fun e => expired now e.2)
  (old.map (·.2), old.foldl (fun s e => s.delete e.1) c)

/-- The operations other threads perform on the table, each under the module lock
(udpm.c 25-32, 233-235, 267-273). -/
inductive Op (C : Type) where
  | query (now : Int) (p : Pending C)
  | response (r : Pending C)
  | sweep (now : Int)
  deriving Repr, DecidableEq

/-- Observable result of an operation. -/
inductive Out (C : Type) where
  | queued
  | delivered (p : Pending C)
  | unmatched
  | timedOut (ps : List (Pending C))
  deriving Repr, DecidableEq

def step (c : Table C) : Op C → Table C × Out C
  | .query now p => (add c now p, .queued)
  | .response r =>
    match genAnswerHeaderAndRemove c r with
    | (none, c') => (c', .unmatched)
    | (some p, c') => (c', .delivered p)
  | .sweep now => ((sweep c now).2, .timedOut (sweep c now).1)

/-- A history of operations, oldest first. -/
def run (c : Table C) : List (Op C) → Table C × List (Out C)
  | [] => (c, [])
  | op :: ops => ((run (step c op).1 ops).1, (step c op).2 :: (run (step c op).1 ops).2)

end Verif.MContext
