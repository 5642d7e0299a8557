import Verif.Model.TcpPool
/-! Specifications for the connections of a module: what may happen on one connection. -/

namespace Verif.TcpPool

/-- The socket an action is about. -/
def Act.sock : Act → Nat
  | .conn s _ _ => s
  | .close s => s
  | .prep s _ _ => s
  | .send s _ _ _ => s
  | .got s => s

/-- How a connection stands: there is none; there is one to a proxy which has not been told where to connect to; a
query can be sent to server `i`, after `n` whole exchanges; the query `m` has been sent to server `i`, after `n`
whole exchanges, and nothing has come back; something has failed. -/
inductive Conn where
  | shut
  | raw
  | ready (i n : Nat)
  | asked (i n : Nat) (m : Msg)
  | broken
deriving DecidableEq, Repr

/-- What may happen next.  Only a connection that is there can be closed; a proxy is told once where to connect to; a
query goes only to the server the connection leads to, and never before the last one has been answered. -/
def Conn.next : Conn → Act → Option Conn
  | .shut, .conn _ viaProxy i => some (if viaProxy then .raw else .ready i 0)
  | .raw, .prep _ i ok => some (if ok then .ready i 0 else .broken)
  | .ready i n, .send _ i' m ok => if i' = i then some (if ok then .asked i n m else .broken) else none
  | .asked i n _, .got _ => some (.ready i (n + 1))
  | .shut, .close _ => none
  | _, .close _ => some .shut
  | _, _ => none

/-- One action, looking at socket `s` only. -/
def Conn.step (s : Nat) (c : Option Conn) (a : Act) : Option Conn := if a.sock = s then c.bind (·.next a) else c

/-- How the connection of socket `s` stands after some actions; `none`: something has been done that must not be. -/
def follow (log : List Act) (s : Nat) : Option Conn := log.foldl (Conn.step s) (some .shut)

/-- Connections are begun to the proxies if there are any, and else to the servers; queries are for servers. -/
def ActOk (cfg : Cfg) : Act → Prop
  | .conn _ viaProxy i => match cfg.proxies with | none => viaProxy = false ∧ i < cfg.servers | some n => viaProxy = true ∧ i < n
  | .prep _ i _ => i < cfg.servers
  | .send _ i _ _ => i < cfg.servers
  | _ => True

/-- A query has been sent. -/
def isSend : Act → Bool
  | .send _ _ _ ok => ok
  | _ => false

/-- The queries that have been sent, how often. -/
def sends (log : List Act) : Nat := log.countP isSend

end Verif.TcpPool
