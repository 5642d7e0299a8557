import Verif.Model.Lifecycle

/-! The three accidents that bring the program to use freed memory. -/

namespace Verif.Lifecycle.Spec

/-- A group is in use, or about to be. -/
def Used (st : St) (m : Mod) : Prop := st.cur = some m.map ∨ st.load = some m.map

/-- An accident:
* no socket can be made for a UDP group that is in use, or waiting for the messages of a proxied group fails;
* the loading of the groups fails after one of them has been started;
* a set of groups is replaced of which one is proxied. -/
def Accident (st : St) : Ev → Prop
  | .work i .fails => ∃ m, st.mods[i]? = some m ∧ (m.kind = .udp ∧ m.wk = .open ∧ m.isOpen = false ∧ Used st m ∨ m.kind = .proxied)
  | .loadFail => ∃ m ∈ st.mods, st.load = some m.map
  | .loadSwap => ∃ m ∈ st.mods, st.cur = some m.map ∧ m.kind = .proxied
  | _ => False

/-- A schedule without an accident. -/
def Calm : St → List Ev → Prop
  | _, [] => True
  | st, e :: es => ¬ Accident st e ∧ ∀ st', step st e = some st' → Calm st' es

/-- The events of the worker and the sweeper of a group, and of the threads that free. -/
def Background : Ev → Prop
  | .work _ .fine => True
  | .sweep _ => True
  | .clean _ => True
  | _ => False

/-- An unending life of the program without an accident, `s n` being its state before the event `σ n`, in which no thread waits for ever: the worker and the sweeper
of every group, and every thread that frees a set of groups, always run again. -/
structure Fair (σ : Nat → Ev) (s : Nat → St) : Prop where
  first : s 0 = start
  next : ∀ n, step (s n) (σ n) = some (s (n + 1))
  calm : ∀ n, ¬ Accident (s n) (σ n)
  work : ∀ n i, i < (s n).mods.length → ∃ n', n ≤ n' ∧ ∃ l, σ n' = .work i l
  sweep : ∀ n i, i < (s n).mods.length → ∃ n', n ≤ n' ∧ σ n' = .sweep i
  clean : ∀ n, ∀ c ∈ (s n).cleaners, ∃ n', n ≤ n' ∧ ∃ k d, σ n' = .clean k ∧ (s n').cleaners[k]? = some d ∧ d.map = c.map

end Verif.Lifecycle.Spec
