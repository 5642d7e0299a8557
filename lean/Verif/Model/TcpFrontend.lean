import Verif.Model.SocketPool
import Verif.Model.CBase
/-! Model of `tcpfrontend.c`: clients that ask over TCP.

The kernel's part is explicit: the open connections and what is still to arrive on each of them.  What is done with a
query (`MMgr_Send`) is the matter of `Verif.Forwarder`; here the queries are collected. -/

namespace Verif.TcpFrontend
open SocketPool

variable {Addr : Type}

/-- What arrives from a client: bytes (at least one), an error (such as a reset), or the end of the stream.  When
the list of arrivals is at its end the client is silent for ever. -/
inductive Arr where
  | data (b : List Byte)
  | fail
  | closed
deriving DecidableEq, Repr

/-- `recv` of at most `n` bytes on a blocking socket (the accepted sockets are left as they are): the number it
returns, the bytes, and what is still to arrive; `none`: it waits for ever.  (With `n = 0` Linux waits for something
to arrive too, and then takes nothing.) -/
def recv (l : List Arr) (n : Nat) : Option (Int × List Byte × List Arr) :=
  match l with
  | [] => none
  | .data b :: l => if b.length ≤ n then some (b.length, b, l) else some (n, b.take n, .data (b.drop n) :: l)
  | .fail :: l => some (-1, [], l)
  | .closed :: l => some (0, [], .closed :: l)

/-- A connection: which it is, its client's address, what is still to arrive, and what has been read. -/
structure Conn (Addr : Type) where
  id : Nat
  addr : Addr
  todo : List Arr
  got : List Byte

/-- A query given to `MMgr_Send`: the connection it was read from, the socket for the reply, the address of the
client for the log, the message. -/
structure Query (Addr : Type) where
  id : Nat
  sock : Nat
  agent : Addr
  msg : List Byte
deriving DecidableEq

/-- The state: the sockets waited for (with the address of the client, `none` – `AF_UNSPEC` – for a listening
socket), the open descriptors of clients, the number of connections so far, and the queries so far. -/
structure St (Addr : Type) where
  puller : Puller (Option Addr)
  conns : List (Nat × Conn Addr)
  count : Nat
  queries : List (Query Addr)

/-- What the thread meets in one turn: which sockets are ready, and for `accept` the new descriptor, the client's
address and what it is going to send (`none`: `accept` fails). -/
structure Turn (Addr : Type) where
  ready : Nat → Bool
  acc : Option (Nat × Addr × List Arr)

/-- How a turn ends: the thread goes on; it leaves the loop; it waits for ever in `recv`; undefined behaviour. -/
inductive Out (Addr : Type) where
  | go (st : St Addr)
  | stop (st : St Addr)
  | blocked (st : St Addr)
  | ub

/-- `CLOSE_SOCKET`. -/
def close (st : St Addr) (s : Nat) : St Addr := { st with conns := st.conns.filter (fun e => e.1 ≠ s) }

/-- The connection of a descriptor after something has been read from it. -/
def put (st : St Addr) (s : Nat) (c : Conn Addr) : St Addr := { st with conns := st.conns.map (fun e => if e.1 = s then (s, c) else e) }

/-- tcpfrontend.c 127-131. -/
def drop (st : St Addr) (s : Nat) (isNew : Bool) : St Addr := if isNew then st else { st with puller := st.puller.del s }

/-- tcpfrontend.c 85-131: reading from the connection `c` with the descriptor `s`; `left` is `LEFT_LENGTH`. -/
def read (left : Nat) (st : St Addr) (s : Nat) (agent : Addr) (c : Conn Addr) (isNew : Bool) : Out Addr :=
  match recv c.todo 2 with
  | none => .blocked st
  | some (n, b, l) =>
    let c := { c with todo := l, got := c.got ++ b }
    let st := put st s c
    if n = 2 then
      let len := (b.getD 0 0).toNat * 256 + (b.getD 1 0).toNat
      if len ≤ left then
        match recv c.todo len with
        | none => .blocked st
        | some (n, b, l) =>
          let st := put st s { c with todo := l, got := c.got ++ b }
          if n = len then
            let st := { st with queries := st.queries ++ [⟨c.id, s, agent, b⟩] }
            if isNew then
              match st.puller.add s (some (some agent)) with
              | none => .ub
              | some p => .go { st with puller := p }
            else .go st
          else .go (drop (close st s) s isNew)
      else .go (drop (close st s) s isNew)
    else if n = 1 then .go (drop (close st s) s isNew)
    else .go (drop st s isNew)

/-- tcpfrontend.c 35-132: one turn of the loop. -/
def step (left : Nat) (st : St Addr) (t : Turn Addr) : Out Addr :=
  match st.puller.select t.ready with
  | none => .stop st
  | some (_, s, some (some a)) =>
    match st.conns.find? (fun e => e.1 == s) with
    | none => .go (drop st s false)   -- `recv` gives EBADF
    | some (_, c) => read left st s a c false
  | some (_, _, _) =>
    match t.acc with
    | none => .go st
    | some (s, a, l) =>
      let c : Conn Addr := ⟨st.count, a, l, []⟩
      read left { st with conns := (s, c) :: st.conns, count := st.count + 1 } s a c true

/-- The turns one after the other, as long as the thread goes on. -/
def run (left : Nat) (st : St Addr) : List (Turn Addr) → Out Addr
  | [] => .go st
  | t :: ts =>
    match step left st t with
    | .go st => run left st ts
    | o => o

/-- What becomes of a line of `TCPLocal` (tcpfrontend.c 182-226): it is not an address; there is no socket; the
address cannot be used; the socket cannot listen; it listens. -/
inductive Line where
  | invalid
  | noSocket
  | noBind
  | noListen (s : Nat)
  | opened (s : Nat)
deriving DecidableEq, Repr

/-- tcpfrontend.c 175-227: the sockets waited for after the lines, in order.  A socket that cannot listen ends the
loop. -/
def openAll (p : Puller (Option Addr)) : List Line → Option (Puller (Option Addr))
  | [] => some p
  | .opened s :: ls => match p.add s (some none) with | none => none | some p => openAll p ls
  | .noListen _ :: _ => some p
  | _ :: ls => openAll p ls

/-- tcpfrontend.c 150-243 `TcpFrontend_Init`. -/
def init (ls : List Line) : Option (St Addr) :=
  match openAll Puller.init ls with
  | none => none
  | some p => some ⟨p, [], 0, []⟩

end Verif.TcpFrontend
