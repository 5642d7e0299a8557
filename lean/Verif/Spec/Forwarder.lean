import Verif.Model.Forwarder
/-! What clients ask and what they are told, for stating the end-to-end properties. -/

namespace Verif.Forwarder
open Msg MContext Pipeline HostsLoop

variable {Addr : Type}

/-- A client: the program's socket it talks to, and its address (none for a TCP connection). -/
abbrev Client (Addr : Type) := Option Addr × Nat

/-- The identifier of a DNS message: its first two bytes, big endian. -/
def idOf : List Byte → Option Nat
  | a :: b :: _ => some (a.toNat * 256 + b.toNat)
  | _ => none

/-- The query of a client among the events: who, and the identifier. -/
def queryOf : Ev Addr → List (Client Addr × Option Nat)
  | .udpQuery sock addr _ b len _ => [((some addr, sock), idOf (b.take len))]
  | .tcpQuery sock _ b len _ => [((none, sock), idOf (b.take len))]
  | _ => []

/-- All queries of clients in a history. -/
def queries (l : List (Env × Ev Addr)) : List (Client Addr × Option Nat) := l.flatMap (fun e => queryOf e.2)

/-- The messages sent to clients. -/
def replies (l : List (Act Addr)) : List (Sent Addr) :=
  l.filterMap (fun a => match a with | .client s => some s | .server _ _ => none)

/-- The message `s` is a reply to the query `q`: it goes to the client that sent the query, it bears the query's
identifier, and nothing is put before it but the length in case of TCP. -/
def Answers (q : Client Addr × Option Nat) : Sent Addr → Prop
  | .tcp sock bytes => q.1 = (none, sock) ∧ ∃ e, bytes = be16 e.length ++ e ∧ ∀ i, idOf e = some i → q.2 = some i
  | .udp sock addr withHeader bytes => q.1 = (some addr, sock) ∧ withHeader = false ∧ ∀ i, idOf bytes = some i → q.2 = some i

/-- One query for each message, in the same order. -/
inductive Matched : List (Client Addr × Option Nat) → List (Sent Addr) → Prop where
  | nil : Matched [] []
  | cons {q s qs ss} : Answers q s → Matched qs ss → Matched (q :: qs) (s :: ss)

/-- A query the header parser accepts, whatever came before. -/
def Accepted : Ev Addr → Prop
  | .udpQuery sock addr agent b len x => ∀ (h m : Head Addr) (c : Int),
      fill h false b len (some (.client addr)) sock agent x.fuel = some (c, m) → c = 0
  | .tcpQuery sock agent b len x => ∀ (h m : Head Addr) (c : Int), fill h false b len none sock agent x.fuel = some (c, m) → c = 0
  | _ => True

/-- The program at its start: no modules yet (`reload` starts them), nothing waits and nothing is on its way.
The cache and all buffers are arbitrary. -/
def Start (st : St Addr) : Prop :=
  st.mods = [] ∧ st.loop.table = Bst.State.init ∧ st.inner = [] ∧ st.outer = []

end Verif.Forwarder
