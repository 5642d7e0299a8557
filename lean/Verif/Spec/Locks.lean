import Verif.Model.Locks

/-! What it means that threads wait for one another, and that they disturb one another. -/

namespace Verif.Locks

/-- What thread number `i` is about to do. -/
def Sys.about (s : Sys) (i : Nat) (a : Act) : Prop := ∃ t k, s.threads[i]? = some t ∧ t.todo = .act a :: k

/-- Thread number `i` holds the lock. -/
def Sys.holds (s : Sys) (i : Nat) (l : Lock) (m : Mode) : Prop := ∃ t, s.threads[i]? = some t ∧ (l, m) ∈ t.held

/-- Thread `i` is about to take a lock that thread `j` holds (whether it has to wait if both only want to read is up to the implementation of the lock). -/
def Sys.waitsFor (s : Sys) (i j : Nat) : Prop := ∃ l m m', s.about i (.acq l m) ∧ s.holds j l m'

/-- Thread `i` waits for thread `j`, or for one that waits for it, and so on. -/
inductive Sys.behind (s : Sys) : Nat → Nat → Prop where
  | one {i j} : s.waitsFor i j → Sys.behind s i j
  | more {i j k} : s.waitsFor i j → Sys.behind s j k → Sys.behind s i k

/-- Thread `i` can go on. -/
def Sys.canGo (s : Sys) (i : Nat) : Prop := ∃ n s', step s (.go i n) = some s'

/-- Two threads are about to touch the same thing, and one of them writes to it. -/
def Sys.race (s : Sys) (i j : Nat) (v : Var) : Prop := i ≠ j ∧ s.about i (.write v) ∧ (s.about j (.read v) ∨ s.about j (.write v))

/-- What may happen from the beginning on. -/
def Reachable (s : Sys) : Prop := ∃ es, run Sys.init es = some s

/-- What the locks are there for. -/
def Guarded : Var → Prop
  | .filterList | .hostsData | .ipLists | .moduleMap | .table _ | .stats | .logFile => True
  | _ => False

end Verif.Locks
