import Verif.Model.SocketPool
/-! Model of the connections a module keeps to its TCP servers or SOCKS proxies (tcpm.c): which connection a query is
sent over, when connections are opened, kept, and closed, and when a query is sent again.  For the bytes see
`Verif.TcpStream`, for what is done with responses `Verif.Pipeline`.

What the system decides is asked from an `Oracle`, each time with a new number. -/

namespace Verif.TcpPool
open SocketPool

/-- tcpm.c 25-34 `TcpContext`; `msg` is the address of the stored query.  (In a new context the last three are not
initialised; they are not read before they are written.) -/
structure Ctx where
  index : Nat
  last : Int
  queried : Nat
  qid : Nat
  hash : Nat
  msg : Option Nat
deriving DecidableEq, Repr

/-- The bytes of a unit that was given no data. -/
def Ctx.zero : Ctx := ⟨0, 0, 0, 0, 0, none⟩

/-- The module's settings: the number of servers and of proxies (`none`: `SocksProxies == NULL`), `Parallel`, and
`TCPM_Keep_Alive`. -/
structure Cfg where
  servers : Nat
  proxies : Option Nat
  parallel : Bool
  keep : Int

/-- The sets of sockets: `Puller`, `QueryPuller`, `Agents[i]`, `ProxyPuller`, `Proxies[j]`. -/
inductive Loc where
  | waiting
  | query
  | agent (i : Nat)
  | proxyQuery
  | proxy (j : Nat)
deriving DecidableEq, Repr

/-- What the system decides, each time it is asked: which sockets are ready; the descriptor of a new connection
(`none`: it fails at once); the time; `rand()`; whether the proxy does what it is asked over a socket; whether sending
over a socket succeeds. -/
structure Oracle where
  ready : Nat → Nat → Bool
  sock : Nat → Option Nat
  time : Nat → Int
  rnd : Nat → Nat
  prepOk : Nat → Nat → Bool
  sendOk : Nat → Nat → Bool

/-- A stored query: where, its identifier and its hash. -/
structure Msg where
  addr : Nat
  qid : Nat
  hash : Nat
deriving DecidableEq, Repr

/-- What is done on connections: a connection is begun to a server or a proxy; it is closed; the proxy is asked to
connect to a server; the query `m` is sent to a server; a whole response has been read. -/
inductive Act where
  | conn (s : Nat) (viaProxy : Bool) (i : Nat)
  | close (s : Nat)
  | prep (s i : Nat) (ok : Bool)
  | send (s i : Nat) (m : Msg) (ok : Bool)
  | got (s : Nat)
deriving DecidableEq, Repr

/-- The state: how often the oracle has been asked, the open descriptors, the socket for queries, the sets, and what
has been done so far. -/
structure St where
  tick : Nat
  opened : List Nat
  incoming : Nat
  pools : Loc → Puller Ctx
  log : List Act

def St.set (st : St) (l : Loc) (p : Puller Ctx) : St := { st with pools := fun l' => if l' = l then p else st.pools l' }

/-- `Del` of a set. -/
def St.del (st : St) (l : Loc) (s : Nat) : St := st.set l ((st.pools l).del s)

/-- `Add` of a set; `none`: undefined behaviour. -/
def St.add (st : St) (l : Loc) (s : Nat) (d : Option Ctx) : Option St := ((st.pools l).add s d).map (st.set l)

/-- `CLOSE_SOCKET`. -/
def St.close (st : St) (s : Nat) : St := { st with opened := st.opened.filter (· ≠ s), log := st.log ++ [.close s] }

/-- `Select` of a set.  (A fatal error is like no socket being ready; in tcpm.c 428-433 it ends the loop, as if none was
ready any more.) -/
def St.select (o : Oracle) (st : St) (l : Loc) : Option (Nat × Ctx) × St :=
  (((st.pools l).select (o.ready st.tick)).map (fun e => (e.2.1, e.2.2.getD .zero)), { st with tick := st.tick + 1 })

/-- Every round of the loops takes a socket away, so there are no more rounds than sockets, and one. -/
def St.rounds (st : St) (l : Loc) : Nat := (st.pools l).pool.root.preorder.length + 1

/-- tcpm.c 49-75 `TcpM_Connect_Recycle`; `n` is the number of `Backups`, `to` gives them. -/
def recycle (o : Oracle) (src : Loc) (n : Nat) (to : Nat → Loc) : Nat → St → Option St
  | 0, st => some st
  | k + 1, st =>
    match st.select o src with
    | (none, st) => some st
    | (some (s, c), st) => if c.index < n then (match (st.del src s).add (to c.index) s (some c) with | none => none | some st => recycle o src n to k st) else none

/-- tcpm.c 81-113 `TcpM_Connect_GetAvailable`. -/
def getAvailable (o : Oracle) (keep : Int) (l : Loc) : Nat → St → Option (Nat × Ctx) × St
  | 0, st => (none, st)
  | k + 1, st =>
    match st.select o l with
    | (none, st) => (none, st)
    | (some (s, c), st) =>
      let st := st.del l s
      let now := o.time st.tick
      let st := { st with tick := st.tick + 1 }
      if now - c.last > keep then getAvailable o keep l k (st.close s) else (some (s, c), st)

/-- tcpm.c 115-147 `TcpM_Connect_Addr`, 216-226: the new socket and its context.  The system does not give a descriptor
that is open; an answer of the oracle that is one counts as a failure. -/
def connectNew (o : Oracle) (viaProxy : Bool) (i : Nat) (st : St) : Option (Nat × Ctx) × St :=
  match o.sock st.tick with
  | none => (none, { st with tick := st.tick + 1 })
  | some s =>
    if s ∈ st.opened then (none, { st with tick := st.tick + 1 })
    else (some (s, ⟨i, o.time st.tick, 0, 0, 0, none⟩), { st with tick := st.tick + 1, opened := s :: st.opened, log := st.log ++ [.conn s viaProxy i] })

/-- `INT_MAX + 1` -/
def intLimit : Nat := 2147483648

/-- tcpm.c 193-242: the loop over the servers or proxies; `one idx` is what is done for one of them: whether a socket
was added.  `none`: undefined behaviour – such as the overflow of `Shift + i`. -/
def overAll (one : Nat → St → Option (Bool × St)) (n shift : Nat) : List Nat → Nat × St → Option (Nat × St)
  | [], r => some r
  | i :: is, (c, st) =>
    if intLimit ≤ shift + i then none
    else
      match one ((shift + i) % n) st with
      | none => none
      | some (b, st) => overAll one n shift is (if b then c + 1 else c, st)

/-- The socket found is added to the set. -/
def adding (l : Loc) (r : Option (Nat × Ctx) × St) : Option (Bool × St) :=
  match r with
  | (none, st) => some (false, st)
  | (some (s, c), st) => (st.add l s (some c)).map (fun st => (true, st))

/-- tcpm.c 193-242 for a proxy. -/
def proxyOne (o : Oracle) (cfg : Cfg) (j : Nat) (st : St) : Option (Bool × St) :=
  match getAvailable o cfg.keep (.proxy j) (st.rounds (.proxy j)) st with
  | (some (s, c), st) => adding .proxyQuery (some (s, c), st)
  | (none, st) => adding .proxyQuery (connectNew o true j st)

/-- tcpm.c 149-245 `TcpM_Connect(m, -1, TRUE)`. -/
def connectProxies (o : Oracle) (cfg : Cfg) (n : Nat) (st : St) : Option (Nat × St) :=
  match recycle o .proxyQuery n .proxy (st.rounds .proxyQuery) st with
  | none => none
  | some st => overAll (proxyOne o cfg) n (o.rnd st.tick) (List.range n) (0, { st with tick := st.tick + 1 })

/-- tcpm.c 193-242 for a server. -/
def serverOne (o : Oracle) (cfg : Cfg) (i : Nat) (st : St) : Option (Bool × St) :=
  match getAvailable o cfg.keep (.agent i) (st.rounds (.agent i)) st with
  | (some (s, c), st) => adding .query (some (s, c), st)
  | (none, st) =>
    match cfg.proxies with
    | none => adding .query (connectNew o false i st)
    | some n =>
      match connectProxies o cfg n st with
      | none => none
      | some (c, st) =>
        if 0 < c then
          match getAvailable o cfg.keep .proxyQuery (st.rounds .proxyQuery) st with
          | (none, st) => some (false, st)
          | (some (s, c), st) => adding .query (some (s, { c with index := i }), st)
        else some (false, st)

/-- tcpm.c 149-245 `TcpM_Connect(m, ServerIndex, FALSE)`; `none` for the index is -1. -/
def connect (o : Oracle) (cfg : Cfg) (single : Option Nat) (st : St) : Option (Nat × St) :=
  match recycle o .query cfg.servers .agent (st.rounds .query) st with
  | none => none
  | some st =>
    let st' := { st with tick := st.tick + 1 }
    match single with
    | some i => (serverOne o cfg i st').map (fun r => (if r.1 then 1 else 0, r.2))
    | none => overAll (serverOne o cfg) cfg.servers (o.rnd st.tick) (List.range cfg.servers) (0, st')

/-- tcpm.c 467-476: the query has been sent over `s`. -/
def sent (o : Oracle) (m : Msg) (s : Nat) (c : Ctx) (st : St) : Option St :=
  let now := o.time st.tick
  ({ st with tick := st.tick + 1 } : St).add .waiting s (some { c with last := now, queried := c.queried + 1, qid := m.qid, hash := m.hash, msg := some m.addr })

/-- tcpm.c 456-476. -/
def sendOver (o : Oracle) (m : Msg) (s : Nat) (c : Ctx) (st : St) : Option St :=
  let ok := o.sendOk st.tick s
  let st := { st with tick := st.tick + 1, log := st.log ++ [.send s c.index m ok] }
  if ok then sent o m s c st else some (st.close s)

/-- tcpm.c 419-479: one round of the loop. -/
def sendOne (o : Oracle) (cfg : Cfg) (m : Msg) (st : St) : Option St :=
  match st.select o .query with
  | (none, st) => some st
  | (some (s, c), st) =>
    let st := st.del .query s
    if cfg.proxies ≠ none ∧ c.queried = 0 then
      let ok := o.prepOk st.tick s
      let st := { st with tick := st.tick + 1, log := st.log ++ [.prep s c.index ok] }
      if ok then sendOver o m s c st else some (st.close s)
    else sendOver o m s c st

/-- tcpm.c 419-479: the rounds. -/
def sendMany (o : Oracle) (cfg : Cfg) (m : Msg) : Nat → St → Option St
  | 0, st => some st
  | k + 1, st => match sendOne o cfg m st with | none => none | some st => sendMany o cfg m k st

/-- tcpm.c 387-482 `TcpM_Send_Actual`. -/
def sendActual (o : Oracle) (cfg : Cfg) (m : Msg) (single : Option Nat) (st : St) : Option St :=
  match connect o cfg single st with
  | none => none
  | some (n, st) => if n < 1 then some st else sendMany o cfg m (if single = none ∧ cfg.parallel then cfg.servers else 1) st

/-- How reading from a connection ends (`TcpStream.receive`): nothing comes (`State < 1`); something that is not a whole
message, or too large; a message. -/
inductive Res where
  | nothing
  | bad
  | whole
deriving DecidableEq, Repr

/-- What the thread meets in a turn: the query that is read and stored (`none`: there was none, or it could not be
stored); how reading ends; and the identifier and hash of the stored query at an address (`none`: its name is
empty). -/
structure Ev where
  inc : Option Msg
  res : Res
  mem : Nat → Option (Nat × Nat)

/-- tcpm.c 630-640: whether the query is sent again, and which. -/
def retry (c : Ctx) (mem : Nat → Option (Nat × Nat)) : Option Msg :=
  match c.msg with
  | none => none
  | some a => if 1 < c.queried ∧ mem a = some (c.qid, c.hash) then some ⟨a, c.qid, c.hash⟩ else none

/-- tcpm.c 545-678: one turn of the loop.  (`Sweep` and `NumberOfCumulated` do not touch the connections.) -/
def turn (o : Oracle) (cfg : Cfg) (st : St) (e : Ev) : Option St :=
  match st.select o .waiting with
  | (none, st) => some st
  | (some (s, c), st) =>
    if s = st.incoming then
      match (match e.inc with | none => some st | some m => sendActual o cfg m none st) with
      | none => none
      | some st => (st.del .waiting s).add .waiting s none
    else
      let st := st.del .waiting s
      match e.res with
      | .nothing =>
        match (match retry c e.mem with | none => some st | some m => sendActual o cfg m (some c.index) st) with
        | none => none
        | some st => some (st.close s)
      | .bad => some (st.close s)
      | .whole =>
        if c.index < cfg.servers then
          ({ st with tick := st.tick + 1, log := st.log ++ [.got s] } : St).add (.agent c.index) s (some { c with last := o.time st.tick, msg := none })
        else none

/-- The turns. -/
def run (o : Oracle) (cfg : Cfg) (st : St) : List Ev → Option St
  | [] => some st
  | e :: es => match turn o cfg st e with | none => none | some st => run o cfg st es

/-- tcpm.c 739-866 `TcpM_Init`, the sets. -/
def init (incoming : Nat) : Option St :=
  (⟨0, [incoming], incoming, fun _ => Puller.init, []⟩ : St).add .waiting incoming none

/-- tcpm.c 503-531 `TcpM_Cleanup`: what is closed, in order. -/
def cleanup (cfg : Cfg) (st : St) : List Nat :=
  st.incoming :: closeAll (st.pools .waiting).pool none ++
    (match cfg.proxies with
      | none => []
      | some n => closeAll (st.pools .proxyQuery).pool none ++ (List.range n).flatMap (fun j => closeAll (st.pools (.proxy j)).pool none)) ++
    closeAll (st.pools .query).pool none ++ (List.range cfg.servers).flatMap (fun i => closeAll (st.pools (.agent i)).pool none)

end Verif.TcpPool
