/-! The life of the server groups: who uses their memory, and who frees it.  Any number of threads that send queries, for every UDP group a
worker and a sweeper, for every TCP group a worker, the thread that (re)loads the groups and, for every replaced set of groups, a thread that
stops and frees it.  A step is one access, or several of one thread between which no other thread can observe a difference. -/

namespace Verif.Lifecycle

/-- mmgr.c 627, 633: `ModuleName`; tcpm.c 824-830: whether a TCP group has proxies. -/
inductive Kind where
  | udp | tcp | proxied
deriving DecidableEq, Repr

/-- Where a worker is: udpm.c 69-255 `UdpM_Works` with 54-67 `UdpM_Cleanup`, tcpm.c 536-740 `TcpM_Works` with 506-534 `TcpM_Cleanup`. -/
inductive Work where
  /-- udpm.c 96, tcpm.c 560: about to test `IsServer` -/
  | test
  /-- udpm.c 101-142: about to see whether there is a socket, and to make one (UDP only) -/
  | open
  /-- udpm.c 144-172: about to wait; tcpm.c 565-734: the whole round of a TCP worker -/
  | wait
  /-- udpm.c 174-230: about to read a message, and to look at it -/
  | recv
  /-- udpm.c 232-235: about to look for the query in the table -/
  | take
  /-- udpm.c 254, tcpm.c 737; udpm.c 56, tcpm.c 508: about to clear `IsServer` -/
  | stop
  /-- udpm.c 58-59, tcpm.c 510-511: about to close the socket -/
  | close
  /-- udpm.c 61-62, tcpm.c 512-529: about to free the addresses (TCP: and everything else of its own) -/
  | drop
  /-- udpm.c 64, tcpm.c 531: about to clear `WorkThread` -/
  | last
  | gone
deriving DecidableEq, Repr

/-- Where a sweeper is: udpm.c 34-52 `UdpM_Sweep_Thread`. -/
inductive Sweep where
  /-- line 40: about to test `IsServer` and `WorkThread` -/
  | test
  /-- line 42 (25-32): about to sweep -/
  | sweep
  /-- line 46: about to free the table -/
  | free
  /-- line 47: about to destroy the lock -/
  | unlock
  /-- line 49: about to clear `SweepThread` -/
  | last
  | gone
deriving DecidableEq, Repr

/-- A group: udpm.h, tcpm.h.  `work` and `sweep`: the thread handles are set (simplification: before the thread runs).  `open`: `Departure` is a socket
(UDP), `Incoming` (TCP).  `addrs`, `proxies`, `ctx`, `lock`, `blk`: not yet freed or destroyed - the addresses with the pointers to them, the addresses of the proxies, the table of waiting queries (TCP: and the
connections), the lock, the memory of the group itself.  `map`: the set of groups it belongs to. -/
structure Mod where
  kind : Kind
  map : Nat
  isServer : Bool
  work : Bool
  sweep : Bool
  isOpen : Bool
  addrs : Bool
  proxies : Bool
  ctx : Bool
  lock : Bool
  blk : Bool
  wk : Work
  sw : Sweep
deriving DecidableEq, Repr

/-- udpm.c 330-416, tcpm.c 742-897: a group that has just been started.  (A TCP group has no lock and no sweeper.) -/
def Mod.new (k : Kind) (map : Nat) : Mod :=
  match k with
  | .udp => ⟨.udp, map, true, true, true, false, true, false, true, true, true, .test, .test⟩
  | .tcp => ⟨.tcp, map, true, true, false, true, true, false, true, false, true, .test, .gone⟩
  | .proxied => ⟨.proxied, map, true, true, false, true, true, true, true, false, true, .test, .gone⟩

/-- `free`: of what has not been freed. -/
def free (alive : Bool) : Option Bool := if alive then some false else none

/-- What a worker meets. -/
inductive Luck where
  | fine
  /-- `socket` fails (udpm.c 120-127), or waiting fails (udpm.c 148-154, tcpm.c 569-573) -/
  | fails
  /-- nothing comes (for long) -/
  | quiet
deriving DecidableEq, Repr

/-- One step of the worker of a group.  `none`: freed memory is used, or something is freed twice. -/
def workStep (m : Mod) (l : Luck) : Option Mod :=
  match m.wk with
  | .gone => some m
  | w =>
    if m.blk = false then none
    else
      match w, m.kind with
      | .test, .udp => some { m with wk := if m.isServer then .open else .stop }
      | .test, _ => some { m with wk := if m.isServer then .wait else .stop }
      | .open, _ =>
        if m.isOpen then some { m with wk := .wait }
        else if m.lock = false ∨ m.addrs = false then none
        else if l = .fails then some { m with wk := .stop }
        else some { m with wk := .wait, isOpen := true }
      | .wait, .udp =>
        match l with
        | .fine => some { m with wk := .recv }
        | .fails => some { m with wk := .test, isOpen := false }
        | .quiet => some { m with wk := .test, isOpen := false }
      | .wait, _ =>
        if m.ctx = false then none
        else if l = .fails then some { m with wk := .stop }
        else if m.addrs = false then none
        else some { m with wk := .test }
      | .recv, _ => some { m with wk := if l = .fine then .take else .test }
      | .take, _ => if m.lock = false ∨ m.ctx = false then none else some { m with wk := .test }
      | .stop, _ => some { m with wk := .close, isServer := false }
      | .close, _ => some { m with wk := .drop, isOpen := false }
      | .drop, .udp => do
        let a ← free m.addrs
        some { m with wk := .last, addrs := a }
      | .drop, .tcp => do
        let c ← free m.ctx
        let a ← free m.addrs
        some { m with wk := .last, addrs := a, ctx := c }
      -- tcpm.c 520: `*(m->SocksProxies)` is the address of the first proxy, where the memory of the list begins (addresslist.c 198-229)
      | .drop, .proxied => do
        let c ← free m.ctx
        let p ← free m.proxies
        let p ← free p
        let a ← free m.addrs
        some { m with wk := .last, addrs := a, ctx := c, proxies := p }
      | .last, _ => some { m with wk := .gone, work := false }
      | .gone, _ => some m

/-- One step of the sweeper of a group.  (Its use of the address list, udpm.c 21, is of a counter in the group itself.) -/
def sweepStep (m : Mod) : Option Mod :=
  match m.sw with
  | .gone => some m
  | s =>
    if m.blk = false then none
    else
      match s with
      | .test => some { m with sw := if m.isServer || m.work then .sweep else .free }
      | .sweep => if m.lock = false ∨ m.ctx = false then none else some { m with sw := .test }
      | .free => do
        let c ← free m.ctx
        some { m with sw := .unlock, ctx := c }
      | .unlock => do
        let c ← free m.lock
        some { m with sw := .last, lock := c }
      | .last => some { m with sw := .gone, sweep := false }
      | .gone => some m

/-- Where a thread that sends a query is: udpm.c 257-328 `UdpM_Send`, tcpm.c 487-504 `TcpM_Send`; it holds the reading lock on the groups, mmgr.c 846-874. -/
inductive Send where
  /-- udpm.c 267-273; tcpm.c 495-501 -/
  | add
  /-- udpm.c 275 -/
  | check
  /-- udpm.c 277-319: about to take an address and to send -/
  | addr
  /-- mmgr.c 874 -/
  | leave
deriving DecidableEq, Repr

/-- One step of a sender on its group: where it is then. -/
def sendStep (m : Mod) (s : Send) : Option Send :=
  if m.blk = false then none
  else
    match s, m.kind with
    | .add, .udp => if m.lock = false ∨ m.ctx = false then none else some .check
    | .add, _ => some .leave
    | .check, _ => some (if m.isOpen then .addr else .leave)
    | .addr, _ => if m.addrs = false then none else some .leave
    | .leave, _ => some .leave

/-- mmgr.c 602-653 `Modules_SafeCleanup` for the set `map`: the next group to look at, and `InUse`. -/
structure Cleaner where
  map : Nat
  pos : Nat
  inUse : Bool
deriving DecidableEq, Repr

/-- The program.  `cur`: `CurModuleMap`; `load`: the set being built, mmgr.c 655-731; `fresh`: the number of the next set. -/
structure St where
  mods : List Mod
  cur : Option Nat
  load : Option Nat
  fresh : Nat
  senders : List (Nat × Send)
  cleaners : List Cleaner
deriving DecidableEq, Repr

/-- mmgr.c 578-600 `Modules_Free`. -/
def freeMap (map : Nat) (ms : List Mod) : Option (List Mod) :=
  if ms.any (fun m => m.map = map && !m.blk) then none
  else some (ms.map fun m => if m.map = map then { m with blk := false } else m)

inductive Ev where
  | work (i : Nat) (l : Luck)
  | sweep (i : Nat)
  /-- a query is to be sent to group `i` of the current set -/
  | enter (i : Nat)
  | send (k : Nat)
  | clean (k : Nat)
  | loadBegin
  | loadStart (k : Kind)
  | loadFail
  | loadSwap
deriving DecidableEq, Repr

/-- Where, from `pos` on, the next group of the set `map` is.  (The groups of a set are in a list of their own, mmgr.c 608-626; here all groups are in one list, and
those of other sets are passed over.) -/
def nextOf (ms : List Mod) (map pos : Nat) : Nat := pos + (ms.drop pos).findIdx fun m => m.map = map

/-- One step of a cleaner: lines 627-638 for the next group; when there is none, lines 642-651. -/
def cleanStep (st : St) (k : Nat) (c : Cleaner) : Option St :=
  let p := nextOf st.mods c.map c.pos
  match st.mods[p]? with
  | some m =>
    if m.blk = false then none
    else some { st with mods := st.mods.set p { m with isServer := false },
                        cleaners := st.cleaners.set k ⟨c.map, p + 1, c.inUse || m.work || m.sweep⟩ }
  | none =>
    if c.inUse then some { st with cleaners := st.cleaners.set k ⟨c.map, 0, false⟩ }
    else
      match freeMap c.map st.mods with
      | none => none
      | some ms => some { st with mods := ms, cleaners := st.cleaners.eraseIdx k }

/-- One step of the program.  What cannot happen changes nothing.  `none`: freed memory is used, or something is freed twice. -/
def step (st : St) : Ev → Option St
  | .work i l =>
    match st.mods[i]? with
    | none => some st
    | some m => (workStep m l).map fun m' => { st with mods := st.mods.set i m' }
  | .sweep i =>
    match st.mods[i]? with
    | none => some st
    | some m => (sweepStep m).map fun m' => { st with mods := st.mods.set i m' }
  -- mmgr.c 846-870
  | .enter i =>
    match st.mods[i]? with
    | none => some st
    | some m => if some m.map = st.cur then some { st with senders := st.senders ++ [(i, .add)] } else some st
  | .send k =>
    match st.senders[k]? with
    | none => some st
    | some (_, .leave) => some { st with senders := st.senders.eraseIdx k }
    | some (i, s) =>
      match st.mods[i]? with
      | none => none
      | some m => (sendStep m s).map fun s' => { st with senders := st.senders.set k (i, s') }
  | .clean k =>
    match st.cleaners[k]? with
    | none => some st
    | some c => cleanStep st k c
  -- mmgr.c 663-706
  | .loadBegin => if st.load = none then some { st with load := some st.fresh, fresh := st.fresh + 1 } else some st
  -- mmgr.c 708 (`Modules_Init`), a group is started
  | .loadStart k =>
    match st.load with
    | none => some st
    | some n => some { st with mods := st.mods ++ [Mod.new k n] }
  -- mmgr.c 710-713, 727-730: a group cannot be started
  | .loadFail =>
    match st.load with
    | none => some st
    | some n => (freeMap n st.mods).map fun ms => { st with mods := ms, load := none }
  -- mmgr.c 715-721: the writing lock is got when no sender holds the lock
  | .loadSwap =>
    match st.load with
    | none => some st
    | some n =>
      if st.senders = [] then
        some { st with cur := some n, load := none,
                       cleaners := match st.cur with | none => st.cleaners | some c => st.cleaners ++ [⟨c, 0, false⟩] }
      else some st

/-- Any schedule. -/
def run : St → List Ev → Option St
  | st, [] => some st
  | st, e :: es => match step st e with | none => none | some st' => run st' es

/-- The program at its start. -/
def start : St := ⟨[], none, none, 0, [], []⟩

end Verif.Lifecycle
