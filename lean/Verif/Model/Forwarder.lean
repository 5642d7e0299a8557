import Verif.Model.Pipeline
import Verif.Model.HostsLoop
/-! The whole program between the clients' sockets and the servers' sockets: the two frontends (udpfrontend.c
14-103, tcpfrontend.c 15-143), the way of queries and responses (`Verif.Pipeline`) and the alias worker
(`Verif.HostsLoop`).

Simplification: one message is processed at a time.  The threads share the cache and the tables, each access
being under a lock, and the order of events is arbitrary; what is left out is that two messages may pass each
other between two stages: see `Verif.Threads`. -/

namespace Verif.Forwarder
open Msg MContext Pipeline HostsLoop

variable {Addr : Type}

abbrev Head (Addr : Type) := Ctx (Dest Addr)

/-- The state: the cache, all modules ever started, where the current ones begin, the header in the buffers of the
two frontends, the alias worker, and the messages on their way to its two sockets. -/
structure St (Addr : Type) where
  cache : Cache.St
  mods : List (Module (Dest Addr))
  base : Nat
  udpHead : Head Addr
  tcpHead : Head Addr
  loop : Loop Addr
  inner : List (Head Addr)
  outer : List (Head Addr)

/-- What leaves the program. -/
inductive Act (Addr : Type) where
  | client (s : Sent Addr)
  | server (i : Nat) (bytes : List Byte)
deriving DecidableEq, Repr

/-- What happens.  (`tcpOpen`: a client connects and its connection gets the socket number; tcpfrontend.c 64.  Waiting
queries are not looked at, neither here nor when a connection is closed, 120, 124.)  `b` is the memory behind the header of the buffer used, the message is its first `len` bytes. -/
inductive Ev (Addr : Type) where
  | udpQuery (sock : Nat) (addr : Addr) (agent b : List Byte) (len : Nat) (x : Luck)
  | tcpQuery (sock : Nat) (agent b : List Byte) (len : Nat) (x : Luck)
  | response (i : Nat) (b : List Byte) (len fuel : Nat) (behindName : List Byte) (clock : Nat → Int)
  | take (i k : Nat) (now : Int) (rest : List Byte)
  | lose (i k : Nat)
  | sweep (i : Nat) (now : Int)
  | cacheSweep (now : Int)
  | innerTake (k cap sock rnd : Nat) (old : Head Addr) (x : Luck)
  | innerLose (k : Nat)
  | outerTake (k cap : Nat) (rest : List Byte) (header fuel : Nat)
  | outerLose (k : Nat)
  | loopSweep (now : Int)
  | reload (protos : List Groups.Proto) (head : Head Addr)
  | tcpOpen (sock : Nat)

/-- Removes the element number `k` from a list. -/
def pick {α : Type} (l : List α) (k : Nat) : Option (α × List α) := l[k]?.map (fun a => (a, l.take k ++ l.drop (k + 1)))

/-- A reply, sent with the header `m`: it leaves the program, or goes to the alias worker with its header. -/
def post (m : Head Addr) (s : Sent (Dest Addr)) : List (Act Addr) × List (Head Addr) :=
  match s with
  | .tcp sock bytes => ([.client (.tcp sock bytes)], [])
  | .udp sock (.client a) r bytes => ([.client (.udp sock a r bytes)], [])
  | .udp _ (.loop p t) _ bytes => ([], [{ m with back := some (.loop p t), entity := bytes }])

def posts (m : Head Addr) (l : List (Sent (Dest Addr))) : List (Act Addr) × List (Head Addr) :=
  (l.flatMap (fun s => (post m s).1), l.flatMap (fun s => (post m s).2))

/-- The replies and the headers handed to the alias worker, among what the hosts code sends. -/
def repliesOf (l : List (Hosts.Out (Dest Addr))) : List (Sent (Dest Addr)) :=
  l.filterMap (fun o => match o with | .reply s => some s | .handOver _ => none)

def handedOf (l : List (Hosts.Out (Dest Addr))) : List (Head Addr) :=
  l.filterMap (fun o => match o with | .reply _ => none | .handOver m => some m)

/-- The header in the sender's buffer after a local reply: the message is now the reply.  (A later message that is
not accepted is given its length.) -/
def after (m : Head Addr) (o : List (Sent (Dest Addr))) : Head Addr :=
  match o with
  | [.tcp _ b] => { m with entity := b.drop 2 }
  | [.udp _ _ _ b] => { m with entity := b }
  | _ => m

/-- iheader.h 15 `RequestTcp`. -/
def requestTcp (m : Head Addr) : Bool := match m.back with | some (.loop _ t) => t | _ => false

/-- mmgr.c 818-877 `MMgr_Send` of the message with header `m` at the start of the memory `b`: the new state, the
header afterwards, and what leaves the program. -/
def mgrSend (e : Env) (st : St Addr) (x : Luck) (b : List Byte) (m : Head Addr) : Option (St Addr × Head Addr × List (Act Addr)) :=
  match Pipeline.decide e st.cache x (b.drop m.entity.length) (requestTcp m) m with
  | none => none
  | some (.refused o) => some ({ st with outer := st.outer ++ (posts m o).2 }, after m o, (posts m o).1)
  | some (.cache o) => some ({ st with outer := st.outer ++ (posts m o).2 }, after m o, (posts m o).1)
  | some (.hosts o) =>
    some ({ st with outer := st.outer ++ (posts m (repliesOf o)).2, inner := st.inner ++ handedOf o }, after m (repliesOf o), (posts m (repliesOf o)).1)
  | some .nowhere => some (st, m, [])
  | some (.upstream i) =>
    match st.mods[st.base + i]? with
    | none => none
    | some d =>
      match d.proto with
      | .udp =>
        match udpSend e x b m d with
        | none => none
        | some (m', d') => some ({ st with mods := st.mods.set (st.base + i) d' }, m', if x.sendOk then [.server (st.base + i) m'.entity] else [])
      | .tcp => some ({ st with mods := st.mods.set (st.base + i) (tcpSend x m d) }, m, [])

/-- One event. -/
def step (e : Env) (st : St Addr) : Ev Addr → Option (St Addr × List (Act Addr))
  | .udpQuery sock addr agent b len x =>
    match fill st.udpHead false b len (some (.client addr)) sock agent x.fuel with
    | none => none
    | some (_, m) =>
      match mgrSend e st x b m with
      | none => none
      | some (st', h, acts) => some ({ st' with udpHead := h }, acts)
  | .tcpQuery sock agent b len x =>
    match fill st.tcpHead false b len none sock agent x.fuel with
    | none => none
    | some (_, m) =>
      match mgrSend e st x b m with
      | none => none
      | some (st', h, acts) => some ({ st' with tcpHead := h }, acts)
  | .response i b len fuel behindName clock =>
    match st.mods[i]? with
    | none => none
    | some d =>
      match respond e b len fuel behindName clock d with
      | none => none
      | some (d', ops, out) =>
        match Cache.run e.cache.cfg st.cache ops with
        | none => none
        | some c =>
          some ({ st with mods := st.mods.set i d', cache := c, outer := st.outer ++ out.flatMap (fun m => (post m (sendBack m)).2) },
            out.flatMap (fun m => (post m (sendBack m)).1))
  | .take i k now rest =>
    match st.mods[i]? with
    | none => none
    | some d =>
      match pick d.inbox k with
      | none => none
      | some (m, l) =>
        some ({ st with mods := st.mods.set i (tcpTake now rest m { d with inbox := l }) }, [.server i (be16 m.entity.length ++ m.entity)])
  | .lose i k =>
    match st.mods[i]? with
    | none => none
    | some d =>
      match pick d.inbox k with
      | none => none
      | some (_, l) => some ({ st with mods := st.mods.set i { d with inbox := l } }, [])
  | .sweep i now =>
    match st.mods[i]? with
    | none => none
    | some d => some ({ st with mods := st.mods.set i { d with table := (MContext.sweep d.table now).2 } }, [])
  | .cacheSweep now =>
    match Cache.run e.cache.cfg st.cache [.sweep now] with
    | none => none
    | some c => some ({ st with cache := c }, [])
  | .innerTake k cap sock rnd old x =>
    match pick st.inner k with
    | none => none
    | some (m, l) =>
      match HostsLoop.inner e.fnm e.hosts cap x.now rnd x.fuel sock old m st.loop with
      | none => none
      | some (lp, none) => some ({ st with inner := l, loop := lp }, [])
      | some (lp, some q) =>
        match mgrSend e { st with inner := l, loop := lp } x (q.entity ++ List.replicate (cap - q.entity.length) 0) q with
        | none => none
        | some (st', _, acts) => some (st', acts)
  | .innerLose k =>
    match pick st.inner k with
    | none => none
    | some (_, l) => some ({ st with inner := l }, [])
  | .outerTake k cap rest header fuel =>
    match pick st.outer k with
    | none => none
    | some (m, l) =>
      match m.back with
      | some (.loop p _) =>
        match HostsLoop.outer cap (m.entity ++ rest) (header + m.entity.length) fuel p m.domain st.loop with
        | none => none
        | some (lp, none) => some ({ st with outer := l, loop := lp }, [])
        | some (lp, some r) => some ({ st with outer := l ++ (post r (sendBack r)).2, loop := lp }, (post r (sendBack r)).1)
      | _ => none
  | .outerLose k =>
    match pick st.outer k with
    | none => none
    | some (_, l) => some ({ st with outer := l }, [])
  | .loopSweep now => some ({ st with loop := { st.loop with table := (MContext.sweep st.loop.table now).2 } }, [])
  | .reload protos head =>
    some ({ st with mods := st.mods ++ protos.map (fun p => ⟨p, Bst.State.init, head, []⟩), base := st.mods.length }, [])
  | .tcpOpen _ => some (st, [])

/-- A history of events, each with the configuration in force at its time. -/
def run (st : St Addr) : List (Env × Ev Addr) → Option (St Addr × List (Act Addr))
  | [] => some (st, [])
  | (e, ev) :: l =>
    match step e st ev with
    | none => none
    | some (st', acts) =>
      match run st' l with
      | none => none
      | some (st'', acts') => some (st'', acts ++ acts')

end Verif.Forwarder
