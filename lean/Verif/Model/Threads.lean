import Verif.Model.Forwarder

/-! The program with its threads: the frontend for UDP (udpfrontend.c 17-106), the one for TCP (tcpfrontend.c), the alias worker (hosts.c
`Hosts_SocketLoop`) and one worker for each group (udpm.c 73-255, tcpm.c 540-740) work at the same time.  What `Verif.Forwarder` does with a message in
one step is here cut at every point where something shared is read or written: the filter, the hosts data, the cache, the groups, the tables, the sockets.
Between two steps of a thread any steps of other threads may happen, and the configuration may be exchanged. -/

namespace Verif.Threads
open Msg MContext Pipeline HostsLoop Forwarder

variable {Addr : Type}

/-- The threads that process messages. -/
inductive Thread where
  | udp | tcp | alias
  | group (i : Nat)
deriving DecidableEq, Repr

/-- What a thread is about to do with the message in its buffer: `b` is the memory behind the header `m`. -/
inductive Task (Addr : Type) where
  /-- mmgr.c 818-828: to ask the filter -/
  | filter (b : List Byte) (m : Head Addr) (x : Luck)
  /-- mmgr.c 830-835: to ask the hosts data -/
  | hosts (b : List Byte) (m : Head Addr) (x : Luck)
  /-- mmgr.c 837-842: to ask the cache -/
  | fetch (b : List Byte) (m : Head Addr) (x : Luck)
  /-- mmgr.c 846-870: to choose a group -/
  | route (b : List Byte) (m : Head Addr) (x : Luck)
  /-- mmgr.c 871, udpm.c 265-273, tcpm.c 495: to give the query to group `i` -/
  | pass (i : Nat) (b : List Byte) (m : Head Addr) (x : Luck)
  /-- udpm.c 275-319: to send the query to the servers of group `i` -/
  | ship (i : Nat) (m : Head Addr) (x : Luck)
  /-- to send the replies of the filter, the hosts data or the cache, or to hand the query to the alias worker -/
  | tell (m : Head Addr) (o : List (Sent (Dest Addr))) (handed : List (Head Addr))
  /-- udpm.c 232-235, tcpm.c 717: to look for the query a response belongs to -/
  | look (i : Nat) (b : List Byte) (h : Head Addr) (fuel : Nat) (behindName : List Byte) (clock : Nat → Int)
  /-- udpm.c 237, tcpm.c 719: to put a response into the cache; `first`: it is the answer to a query -/
  | learn (b : List Byte) (h : Head Addr) (fuel : Nat) (behindName : List Byte) (clock : Nat → Int) (first : Bool)
  /-- udpm.c 244, tcpm.c 726: to send an answer to the one who asked -/
  | answer (h : Head Addr)

/-- The state: what the threads share (and the headers in their buffers), and what each of them is doing. -/
structure Sys (Addr : Type) where
  st : St Addr
  tasks : List (Thread × Task Addr)

/-- What happens: a thread begins with a message (or something else happens, as in `Verif.Forwarder`), or the thread of task number `k` makes a step. -/
inductive Ev (Addr : Type) where
  | begin (ev : Forwarder.Ev Addr)
  | go (k : Nat)

/-- The thread is done with its message; `h` is the header left in its buffer. -/
def finish (t : Thread) (h : Head Addr) (st : St Addr) : St Addr :=
  match t with
  | .udp => { st with udpHead := h }
  | .tcp => { st with tcpHead := h }
  | _ => st

/-- One step of the thread `t`: the state, what it does next, and what leaves the program. -/
def advance (e : Env) (st : St Addr) (t : Thread) : Task Addr → Option (St Addr × Option (Task Addr) × List (Act Addr))
  | .filter b m x =>
    match Filter.filterOut e.filter e.fnm x.behindName m with
    | (true, o) => some (st, some (.tell m o []), [])
    | (false, _) => some (st, some (.hosts b m x), [])
  | .hosts b m x =>
    match Hosts.hostsGet e.fnm e.goodIp e.hosts (b.drop m.entity.length) x.handOk m with
    | none => none
    | some (code, o) => if code = 0 then some (st, some (.tell m (repliesOf o) (handedOf o)), []) else some (st, some (.fetch b m x), [])
  | .fetch b m x =>
    match (if e.cacheOn then DnsCache.fetch e.cache.cfg st.cache (b.drop m.entity.length) x.fuel x.now m else some (-792, [])) with
    | none => none
    | some (code, o) => if code = 0 then some (st, some (.tell m o []), []) else some (st, some (.route b m x), [])
  | .route b m x =>
    match Groups.route e.opts e.groups e.fnm x.behindName x.rnd (ident (m.entity ++ b.drop m.entity.length)).toNat (isFromTcp m || requestTcp m) m.domain m.hash with
    | some i => some (st, some (.pass (st.base + i) b m x), [])
    | none => some (finish t m st, none, [])
  | .pass i b m x =>
    match st.mods[i]? with
    | none => none
    | some d =>
      match d.proto with
      | .udp =>
        match udpSend e x b m d with
        | none => none
        | some (m', d') => some ({ st with mods := st.mods.set i d' }, some (.ship i m' x), [])
      | .tcp => some (finish t m { st with mods := st.mods.set i (tcpSend x m d) }, none, [])
  | .ship i m x => some (finish t m st, none, if x.sendOk then [.server i m.entity] else [])
  | .tell m o handed =>
    some (finish t (after m o) { st with outer := st.outer ++ (posts m o).2, inner := st.inner ++ handed }, none, (posts m o).1)
  | .look i b h fuel behindName clock =>
    match st.mods[i]? with
    | none => none
    | some d =>
      match genAnswerHeaderAndRemove d.table (entry b h) with
      | (none, q) => some ({ st with mods := st.mods.set i { d with table := q, head := h } }, some (.learn b h fuel behindName clock false), [])
      | (some p, q) =>
        let h' := { p.client with entity := h.entity, edns := h.edns }
        some ({ st with mods := st.mods.set i { d with table := q, head := h' } }, some (.learn b h' fuel behindName clock true), [])
  | .learn b h fuel behindName clock first =>
    match Pipeline.learn e b h.entity.length fuel h.domain behindName clock first with
    | none => none
    | some ops =>
      match Cache.run e.cache.cfg st.cache ops with
      | none => none
      | some c => some ({ st with cache := c }, if first then some (.answer h) else none, [])
  | .answer h => some ({ st with outer := st.outer ++ (post h (sendBack h)).2 }, none, (post h (sendBack h)).1)

/-- Whether a thread is at work. -/
def busy (s : Sys Addr) (t : Thread) : Bool := s.tasks.any (fun p => p.1 == t)

/-- A thread that is not at work begins with a task. -/
def Sys.with (s : Sys Addr) (st : St Addr) (t : Thread) (k : Task Addr) : Sys Addr := ⟨st, s.tasks ++ [(t, k)]⟩

/-- A thread begins with a message, or something happens that is one access to one thing that is shared. -/
def start (e : Env) (s : Sys Addr) : Forwarder.Ev Addr → Option (Sys Addr × List (Act Addr))
  | .udpQuery sock addr agent b len x =>
    if busy s .udp then none
    else
      match fill s.st.udpHead false b len (some (.client addr)) sock agent x.fuel with
      | none => none
      | some (_, m) => some (s.with s.st .udp (.filter b m x), [])
  | .tcpQuery sock agent b len x =>
    if busy s .tcp then none
    else
      match fill s.st.tcpHead false b len none sock agent x.fuel with
      | none => none
      | some (_, m) => some (s.with s.st .tcp (.filter b m x), [])
  -- udpm.c 191-230, tcpm.c 677-715
  | .response i b len fuel behindName clock =>
    if busy s (.group i) then none
    else
      match s.st.mods[i]? with
      | none => none
      | some d =>
        match fill d.head false b len none 0 [] fuel with
        | none => none
        | some (_, h) =>
          match misc e b h.entity.length with
          | none => none
          | some (v, b') =>
            let h := { h with entity := b'.take h.entity.length }
            let st := { s.st with mods := s.st.mods.set i { d with head := h } }
            if v ≠ .nothing then some ({ s with st := st }, [])
            else if isBlocked e.ap h then some ({ s with st := st }, [])
            else some (s.with st (.group i) (.look i b' h fuel behindName clock), [])
  | .innerTake k cap sock rnd old x =>
    if busy s .alias then none
    else
      match pick s.st.inner k with
      | none => none
      | some (m, l) =>
        match HostsLoop.inner e.fnm e.hosts cap x.now rnd x.fuel sock old m s.st.loop with
        | none => none
        | some (lp, none) => some ({ s with st := { s.st with inner := l, loop := lp } }, [])
        | some (lp, some q) =>
          some (s.with { s.st with inner := l, loop := lp } .alias (.filter (q.entity ++ List.replicate (cap - q.entity.length) 0) q x), [])
  | .outerTake k cap rest header fuel =>
    if busy s .alias then none
    else
      match pick s.st.outer k with
      | none => none
      | some (m, l) =>
        match m.back with
        | some (.loop p _) =>
          match HostsLoop.outer cap (m.entity ++ rest) (header + m.entity.length) fuel p m.domain s.st.loop with
          | none => none
          | some (lp, none) => some ({ s with st := { s.st with outer := l, loop := lp } }, [])
          | some (lp, some r) => some (s.with { s.st with outer := l, loop := lp } .alias (.answer r), [])
        | _ => none
  | .loopSweep now => if busy s .alias then none else (Forwarder.step e s.st (.loopSweep now)).map fun r => ({ s with st := r.1 }, r.2)
  | .take i k now rest => if busy s (.group i) then none else (Forwarder.step e s.st (.take i k now rest)).map fun r => ({ s with st := r.1 }, r.2)
  | ev => (Forwarder.step e s.st ev).map fun r => ({ s with st := r.1 }, r.2)

/-- One event. -/
def step (e : Env) (s : Sys Addr) : Ev Addr → Option (Sys Addr × List (Act Addr))
  | .begin ev => start e s ev
  | .go k =>
    match s.tasks[k]? with
    | none => none
    | some (t, task) =>
      match advance e s.st t task with
      | none => none
      | some (st, none, acts) => some (⟨st, s.tasks.eraseIdx k⟩, acts)
      | some (st, some task', acts) => some (⟨st, s.tasks.set k (t, task')⟩, acts)

/-- A history of steps of all threads, each with the configuration in force at its time. -/
def run (s : Sys Addr) : List (Env × Ev Addr) → Option (Sys Addr × List (Act Addr))
  | [] => some (s, [])
  | (e, ev) :: l =>
    match step e s ev with
    | none => none
    | some (s', acts) =>
      match run s' l with
      | none => none
      | some (s'', acts') => some (s'', acts ++ acts')

end Verif.Threads
