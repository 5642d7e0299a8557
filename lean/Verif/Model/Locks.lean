/-! The locks of the program and what the threads touch while they hold them.  Every function that takes a lock, or that touches what several threads
share, is written down as the sequence of its lock operations and accesses; what decides between two ways is left out, so that either may be taken.
Not in it: what is done before the frontends begin to work, and what is done when a group is given up (`Verif.Groups` has that: mmgr.c 610-652). -/

namespace Verif.Locks

/-- The locks: `DisabledDomainLock` (filter.c), `HostsLock` (dynamichosts.c), `IpMiscMappingLock` (ipmisc.c), `CacheLock` (dnscache.c), `ModulesLock`
(mmgr.c), the lock of a UDP group (udpm.h), `StatisticLock` (domainstatistic.c), `PrintLock` (logs.c). -/
inductive Lock where
  | filter | hosts | ipmisc | cache | modules
  | table (i : Nat)
  | stat | print
deriving DecidableEq, Repr

/-- How a lock is held: together with other readers or alone.  Locks that are no readers-writer locks are held alone. -/
inductive Mode where
  | rd | wr
deriving DecidableEq, Repr

/-- What several threads touch. -/
inductive Var where
  /-- the pointers `DisabledDomain`, `MainDynamicContainer`, `CurrIpMiscMapping` themselves -/
  | filterPtr | hostsPtr | ipPtr
  /-- what they point to -/
  | filterList | hostsData | ipLists
  /-- the map of the groups (mmgr.c `CurModuleMap` and what it points to) -/
  | moduleMap
  /-- the cache (dnscache.c) -/
  | cacheData
  /-- the open queries of a UDP group (udpm.h `Context`) -/
  | table (i : Nat)
  /-- the socket, the place in the list of servers and the number of timeouts of a UDP group (udpm.h `Departure`, `AddrList`, `CountOfTimeout`) -/
  | sock (i : Nat)
  /-- the statistics (domainstatistic.c `MainChunk`) -/
  | stats
  /-- the log file and its length (logs.c) -/
  | logFile
  /-- the addresses of the lists `GoodIPList` (goodiplist.c) -/
  | goodIps
deriving DecidableEq, Repr

inductive Act where
  | acq (l : Lock) (m : Mode)
  | rel (l : Lock)
  | read (v : Var)
  | write (v : Var)
  /-- the flag `SkipStatistic` (domainstatistic.c) is set -/
  | skip (b : Bool)
  /-- to wait for a message, for the clock or for a download: `select`, `SLEEP`, and so on -/
  | wait
  /-- to send a reply to a client, which may take long if the client uses TCP and does not read (iheader.c 159-205) -/
  | reply
  /-- something that touches none of these -/
  | other
deriving DecidableEq, Repr

inductive Code where
  | act (a : Act)
  | seq (c d : Code)
  /-- one of both -/
  | alt (c d : Code)
  /-- any number of times, or for ever -/
  | star (c : Code)
  /-- one of these -/
  | any (f : Nat → Code)
  /-- `c` if the flag `SkipStatistic` is set, `d` otherwise -/
  | ifSkip (c d : Code)

namespace Code
def nop : Code := act .other
def opt (c : Code) : Code := alt nop c
def all : List Code → Code
  | [] => nop
  | [c] => c
  | c :: cs => seq c (all cs)
/-- `c` while a lock is held -/
def within (l : Lock) (m : Mode) (c : Code) : Code := all [act (.acq l m), c, act (.rel l)]
end Code
open Code

/-- logs.c 142-182 (`Log_Print`), if there is anything to write to; 110-139 are inside -/
def log : Code := opt (within .print .wr (act (.write .logFile)))

/-- domainstatistic.c 262-369 -/
def statAdd : Code := opt (within .stat .wr (ifSkip nop (alt (act (.read .stats)) (all [act (.read .stats), act (.write .stats)]))))

/-- domainstatistic.c 87-190 -/
def statWorks : Code :=
  opt (all [within .stat .wr (act (.skip true)), star (act (.read .stats)), within .stat .wr (act (.skip false))])

/-- filter.c 284-320: the pointer is looked at before the lock is taken -/
def filterOut : Code :=
  all [opt (seq (act (.read .filterPtr)) (opt (within .filter .rd (all [act (.read .filterPtr), act (.read .filterList)])))),
       opt (all [act .reply, log, statAdd])]

/-- hostsutils.c 5-122: a record is written into a reply -/
def hostsRecord : Code := opt (act (.read .goodIps))

/-- dynamichosts.c 243-281 (`DynamicHosts_GetCName`, `DynamicHosts_TypeExisting`) -/
def hostsLook : Code := seq (act (.read .hostsPtr)) (opt (within .hosts .rd (all [act (.read .hostsPtr), act (.read .hostsData)])))

/-- dynamichosts.c 283-303 and hostsutils.c 122-257 -/
def hostsTry : Code :=
  seq (act (.read .hostsPtr)) (opt (within .hosts .rd (all [act (.read .hostsPtr), act (.read .hostsData), hostsRecord, opt (act .reply)])))

/-- hosts.c 45-117 (`Hosts_Try`, `Hosts_Get`); the static hosts data is never written -/
def hostsGet : Code := all [star hostsLook, hostsRecord, opt (act .reply), opt hostsTry, opt (all [act .reply, log, statAdd])]

/-- dnscache.c 801-961 (`DNSCache_GetByQuestion`, `DNSCache_FetchFromCache`), and 682-756: it logs while it holds the lock -/
def cacheFetch : Code := opt (all [within .cache .rd (star (all [act (.read .cacheData), log])), opt (all [act .reply, log, statAdd])])

/-- dnscache.c 629-674 (`DNSCache_AddItemsToCache`), and 500-627: it logs while it holds the lock -/
def cacheAdd : Code := opt (within .cache .wr (star (all [act (.read .cacheData), opt (act (.write .cacheData)), log])))

/-- dnscache.c 60-107: the lock is taken when the first record is found that has run out -/
def cacheSweep : Code :=
  seq (star (act (.read .cacheData))) (opt (within .cache .wr (star (alt (act (.read .cacheData)) (act (.write .cacheData))))))

/-- udpm.c 257-328: the lock is held only for the table -/
def udpSend (i : Nat) : Code := all [within (.table i) .wr (act (.write (.table i))), star (act (.read (.sock i))), log]

/-- tcpm.c 485-502: it only sends to the worker of the group -/
def tcpSend : Code := nop

/-- mmgr.c 818-877 -/
def mmgrSend : Code :=
  seq filterOut (opt (seq hostsGet (opt (seq cacheFetch (opt
    (within .modules .rd (seq (act (.read .moduleMap)) (any fun i => alt (udpSend i) tcpSend))))))))

/-- udpfrontend.c 17-106, tcpfrontend.c 15-136 -/
def frontend : Code := seq (star (all [act .wait, log, opt mmgrSend])) log

/-- hosts.c 119-300: `Hosts_GetCName`, `MMgr_Send`, logging -/
def aliasLoop : Code := seq (star (all [act .wait, opt hostsLook, log, opt mmgrSend, opt (act .reply), log])) log

/-- ipmisc.c 382-404 -/
def ipProcess : Code := seq (act (.read .ipPtr)) (opt (within .ipmisc .rd (all [act (.read .ipPtr), act (.read .ipLists)])))

/-- udpm.c 96-139: a socket is made -/
def udpOpen (i : Nat) : Code := opt (within (.table i) .wr (all [act (.read (.sock i)), log, act (.write (.sock i))]))

/-- udpm.c 73-255 without the end (254) -/
def udpWorks (i : Nat) : Code :=
  star (all [act (.read (.sock i)), udpOpen i, act .wait, opt (seq (act (.write (.sock i))) log), opt
    (all [act (.write (.sock i)), ipProcess, opt (seq log statAdd), opt
      (all [within (.table i) .wr (act (.write (.table i))), cacheAdd, opt (all [act .reply, log, statAdd])])])])

/-- udpm.c 12-46: it logs and counts while it holds the lock -/
def udpSweep (i : Nat) : Code :=
  star (seq (within (.table i) .wr (all [act (.read (.table i)), opt (act (.write (.table i))), star (all [log, statAdd, act (.write (.sock i))])]))
    (act .wait))

/-- tcpm.c 540-740; the open queries of a TCP group are touched by this thread only -/
def tcpWorks : Code :=
  star (all [act .wait, log, opt (all [ipProcess, opt (seq log statAdd), opt (all [cacheAdd, opt (all [act .reply, log, statAdd])])]), star (seq log statAdd)])

/-- goodiplist.c 78-116: no lock at all -/
def goodIpCheck : Code := all [act (.read .goodIps), act .wait, log, opt (all [act (.read .goodIps), act (.write .goodIps)])]

/-- timedtask.c 159-315: the thread of the tasks that are done one after the other -/
def timer : Code := star (seq (act .wait) (alt statWorks (alt cacheSweep goodIpCheck)))

/-- dynamichosts.c 37-103 -/
def hostsLoad : Code := all [log, opt (within .hosts .wr (all [act (.write .hostsData), act (.write .hostsPtr)])), log]

/-- filter.c 205-243 -/
def filterLoad : Code :=
  all [log, opt (within .filter .wr (all [act (.read .filterPtr), opt (all [act (.write .filterList), act (.write .filterPtr)]), act (.write .filterPtr)])), log]

/-- ipmisc.c 260-356 -/
def ipLoad : Code := all [star log, opt (within .ipmisc .wr (all [act (.write .ipLists), act (.write .ipPtr)])), log]

/-- mmgr.c 655-730 -/
def modulesLoad : Code := all [star log, opt (within .modules .wr (all [nop, act (.write .moduleMap)])), log]

/-- dynamichosts.c 119-163 -/
def update : Code := all [star (seq log (act .wait)), opt (all [hostsLoad, opt filterLoad, opt ipLoad, opt modulesLoad, log])]

/-- The threads. -/
inductive Kind where
  | frontend | alias
  | udpWorker (i : Nat) | udpSweeper (i : Nat)
  | tcpWorker (i : Nat)
  | timer | update
deriving DecidableEq, Repr

def program : Kind → Code
  | .frontend => frontend
  | .alias => aliasLoop
  | .udpWorker i => udpWorks i
  | .udpSweeper i => udpSweep i
  | .tcpWorker _ => tcpWorks
  | .timer => timer
  | .update => update

/-- A thread: what is still to do, and what it holds. -/
structure Thread where
  kind : Kind
  todo : List Code
  held : List (Lock × Mode)

structure Sys where
  threads : List Thread
  /-- `SkipStatistic` -/
  skipping : Bool

/-- Nothing is running. -/
def Sys.init : Sys := ⟨[], false⟩

/-- What happens: a thread is made, or thread number `i` makes a step; `n` says which way it takes. -/
inductive Ev where
  | spawn (k : Kind)
  | go (i : Nat) (n : Nat)
deriving Repr

/-- Whether somebody holds the lock in that way. -/
def Sys.held (s : Sys) (l : Lock) (m : Mode) : Bool := s.threads.any fun t => t.held.contains (l, m)

/-- rwlock.h, pthread: whether the lock is given. -/
def Sys.free (s : Sys) (l : Lock) : Mode → Bool
  | .rd => !s.held l .wr
  | .wr => !s.held l .wr && !s.held l .rd

/-- One step of a thread: its new state and the flag.  `none`: it waits, it has ended, or it gives back what it does not hold. -/
def move (s : Sys) (t : Thread) (n : Nat) : Option (Thread × Bool) :=
  match t.todo with
  | [] => none
  | .act (.acq l m) :: k => if s.free l m then some ({ t with todo := k, held := (l, m) :: t.held }, s.skipping) else none
  | .act (.rel l) :: k =>
    if t.held.any (fun p => p.1 == l) then some ({ t with todo := k, held := t.held.filter (fun p => p.1 != l) }, s.skipping) else none
  | .act (.skip b) :: k => some ({ t with todo := k }, b)
  | .act _ :: k => some ({ t with todo := k }, s.skipping)
  | .seq c d :: k => some ({ t with todo := c :: d :: k }, s.skipping)
  | .alt c d :: k => some ({ t with todo := (if n = 0 then c else d) :: k }, s.skipping)
  | .star c :: k => some ({ t with todo := if n = 0 then k else c :: .star c :: k }, s.skipping)
  | .any f :: k => some ({ t with todo := f n :: k }, s.skipping)
  | .ifSkip c d :: k => some ({ t with todo := (if s.skipping then c else d) :: k }, s.skipping)

/-- timedtask.c: there is one thread for the tasks that are done one after the other. -/
def step (s : Sys) : Ev → Option Sys
  | .spawn k =>
    if k = .timer && s.threads.any (fun t => t.kind == .timer) then none
    else some { s with threads := s.threads ++ [⟨k, [program k], []⟩] }
  | .go i n =>
    match s.threads[i]? with
    | none => none
    | some t =>
      match move s t n with
      | none => none
      | some (t', b) => some ⟨s.threads.set i t', b⟩

def run (s : Sys) : List Ev → Option Sys
  | [] => some s
  | e :: es =>
    match step s e with
    | none => none
    | some s' => run s' es

end Verif.Locks
