import Verif.Model.Threads
import Verif.Spec.Forwarder
/-! What clients ask, among the steps of all threads. -/

namespace Verif.Threads
open Forwarder

variable {Addr : Type}

/-- The queries received in a history: who asked, and the identifier. -/
def asked (l : List (Pipeline.Env × Ev Addr)) : List (Client Addr × Option Nat) :=
  l.flatMap (fun x => match x.2 with | .begin q => queryOf q | .go _ => [])

/-- Every query received is one the header parser accepts. -/
def AllAccepted (l : List (Pipeline.Env × Ev Addr)) : Prop := ∀ x ∈ l, ∀ q, x.2 = .begin q → Accepted q

/-- The program at its start, and no thread at work. -/
def Fresh (s : Sys Addr) : Prop := Start s.st ∧ s.tasks = []

end Verif.Threads
