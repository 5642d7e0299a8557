/-! Model of data that is looked up by many threads while it is reloaded: dynamichosts.c (hosts), filter.c
(disabled domains), ipmisc.c (address mappings) and mmgr.c (server groups).  They follow one pattern; `Mode` holds the
differences.  A step is what one thread does between two points where others can be seen to run.  What is looked up
is a list of lines.  Simplified: a map of server groups has one UDP module. -/

namespace Verif.Reload

structure Mode where
  /-- rwlock.h 67-83: `pthread_rwlock_t` (more than one reader), or `pthread_mutex_t`. -/
  shared : Bool
  /-- The pointer is tested for NULL before the lock is taken: dynamichosts.c 245, 266, 287, filter.c 291,
  ipmisc.c 388; not in mmgr.c. -/
  test : Bool
  /-- mmgr.c: the data has threads of its own, and a thread that frees the old one. -/
  modules : Bool
  /-- filter.c 207-214 with utils.h 40: the pointer itself is set to NULL when the old one is freed; dynamichosts.c 25-32 and
  ipmisc.c 165-174 set only their copy of it. -/
  nulls : Bool
deriving DecidableEq, Repr

/-- A container, a table or a module map.  `inner` are the pending queries of the module (`Context`, with its `Lock`; udpm.c 46-47). -/
structure Obj (α : Type) where
  lines : List α
  live : Bool
  inner : Bool
  /-- `WorkThread` and `SweepThread` run; `IsServer`. -/
  work : Bool
  sweep : Bool
  server : Bool
  /-- Freed, or handed over to `Modules_SafeCleanup`. -/
  dropped : Bool
deriving DecidableEq, Repr

/-- Where a thread is.  `start` and `seen` are notes about the lookup for the statements, not in the code. -/
inductive PC (α : Type) where
  | idle
  /-- The pointer was not NULL. -/
  | tested (start : Nat)
  /-- Holds the lock for reading; `p` is the pointer it loaded, if it did. -/
  | reading (start : Nat) (p : Option (Option Nat)) (seen : List (List α))
  /-- Builds a new one, lines `todo` are missing. -/
  | building (r : Nat) (todo : List α)
  /-- Holds the lock for writing. -/
  | writing (r : Nat)
  /-- The old one was freed or handed over. -/
  | replacing (r : Nat)
  | replaced
deriving DecidableEq, Repr

/-- A finished lookup: how many versions had been there when it started and when it ended, what it saw;
`absent`: there was nothing to look into. -/
structure Lookup (α : Type) where
  start : Nat
  finish : Nat
  seen : List (List α)
  absent : Bool
deriving DecidableEq, Repr

structure St (α : Type) where
  heap : Nat → Option (Obj α)
  next : Nat
  cur : Option Nat
  writer : Option Nat
  readers : List Nat
  pc : Nat → PC α
  /-- Notes for the statements: the versions there were, the lines reloads were to load, the lookups. -/
  pubs : List (List α)
  wanted : List (List α)
  log : List (Lookup α)

/-- What a thread can do. -/
inductive Act (α : Type) where
  | test
  | rdlock
  | load
  | access
  | send
  | unlock
  | start (lines : List α)
  | add
  | fail
  | wrlock
  | drop
  | assign
  | wunlock
  /-- Threads of a module: `Modules_SafeCleanup` stops and frees, the work and the sweep thread use it and end;
  `fatal`: the work thread ends because there is no socket. -/
  | stop (r : Nat)
  | free (r : Nat)
  | workUse (r : Nat)
  | workEnd (r : Nat)
  | fatal (r : Nat)
  | sweepUse (r : Nat)
  | sweepEnd (r : Nat)
deriving DecidableEq, Repr

variable {α : Type}

def St.setPC (s : St α) (t : Nat) (p : PC α) : St α := { s with pc := fun i => if i = t then p else s.pc i }

def St.setObj (s : St α) (r : Nat) (o : Obj α) : St α := { s with heap := fun i => if i = r then some o else s.heap i }

/-- What a step leads to. -/
inductive Out (α : Type) where
  | crash
  | next (s : St α)

/-- A new object; modules start their threads when they are made (udpm.c 411-414). -/
def newObj (m : Mode) : Obj α := ⟨[], true, true, m.modules, m.modules, true, false⟩

/-- One step of thread `t`; `none`: it is not its turn, or it has to wait. -/
def step (m : Mode) (s : St α) (t : Nat) : Act α → Option (Out α)
  -- Lookups: dynamichosts.c 232-301, filter.c 287-301, ipmisc.c 383-403, mmgr.c 846-874.
  | .test =>
    match s.pc t with
    | .idle =>
      if m.test then
        match s.cur with
        | none => some (.next { s with log := s.log ++ [⟨s.pubs.length, s.pubs.length, [], true⟩] })
        | some _ => some (.next (s.setPC t (.tested s.pubs.length)))
      else some (.next (s.setPC t (.tested s.pubs.length)))
    | _ => none
  | .rdlock =>
    match s.pc t with
    | .tested n =>
      if s.writer = none ∧ (m.shared ∨ s.readers = []) then
        some (.next { s.setPC t (.reading n none []) with readers := t :: s.readers })
      else none
    | _ => none
  | .load =>
    match s.pc t with
    | .reading n _ seen => some (.next (s.setPC t (.reading n (some s.cur) seen)))
    | _ => none
  | .access =>
    match s.pc t with
    | .reading n (some p) seen =>
      match p.bind s.heap with
      | none => some .crash
      | some o => if o.live then some (.next (s.setPC t (.reading n (some p) (seen ++ [o.lines])))) else some .crash
    | _ => none
  -- udpm.c 257-328 `UdpM_Send`.
  | .send =>
    match s.pc t with
    | .reading _ (some p) _ =>
      if m.modules then
        match p.bind s.heap with
        | none => some .crash
        | some o => if o.live ∧ o.inner then some (.next s) else some .crash
      else none
    | _ => none
  | .unlock =>
    match s.pc t with
    | .reading n _ seen =>
      some (.next { s.setPC t .idle with readers := s.readers.erase t, log := s.log ++ [⟨n, s.pubs.length, seen, false⟩] })
    | _ => none
  -- Reloads: dynamichosts.c 42-100, filter.c 216-244, ipmisc.c 238-355, mmgr.c 652-731.
  | .start lines =>
    match s.pc t with
    | .idle =>
      some (.next { (s.setObj s.next (newObj m)).setPC t (.building s.next lines) with next := s.next + 1, wanted := s.wanted ++ [lines] })
    | _ => none
  | .add =>
    match s.pc t with
    | .building r (x :: todo) =>
      match s.heap r with
      | none => some .crash
      | some o => if o.live then some (.next ((s.setObj r { o with lines := o.lines ++ [x] }).setPC t (.building r todo))) else some .crash
    | _ => none
  -- dynamichosts.c 54-63, filter.c 231-234, mmgr.c 727-730 `Modules_Free`.
  | .fail =>
    match s.pc t with
    | .building r _ =>
      match s.heap r with
      | none => some .crash
      | some o => some (.next ((s.setObj r { o with live := false, dropped := true }).setPC t .idle))
    | _ => none
  | .wrlock =>
    match s.pc t with
    | .building r [] => if s.writer = none ∧ s.readers = [] then some (.next { s.setPC t (.writing r) with writer := some t }) else none
    | _ => none
  | .drop =>
    match s.pc t with
    | .writing r =>
      match s.cur with
      | none => some (.next (s.setPC t (.replacing r)))
      | some c =>
        match s.heap c with
        | none => some .crash
        | some o =>
          if o.live then
            some (.next { (s.setObj c { o with live := m.modules, dropped := true }).setPC t (.replacing r) with cur := if m.nulls then none else s.cur })
          else some .crash
    | _ => none
  | .assign =>
    match s.pc t with
    | .replacing r =>
      some (.next { s.setPC t .replaced with cur := some r, pubs := s.pubs ++ [match s.heap r with | some o => o.lines | none => []] })
    | _ => none
  | .wunlock =>
    match s.pc t with
    | .replaced => some (.next { s.setPC t .idle with writer := none })
    | _ => none
  -- mmgr.c 602-651 `Modules_SafeCleanup`.
  | .stop r =>
    match s.heap r with
    | some o => if m.modules ∧ o.dropped then (if o.live then some (.next (s.setObj r { o with server := false })) else none) else none
    | none => none
  | .free r =>
    match s.heap r with
    | some o =>
      if m.modules ∧ o.dropped ∧ o.live ∧ o.work = false ∧ o.sweep = false then some (.next (s.setObj r { o with live := false })) else none
    | none => none
  -- udpm.c 54-256 `UdpM_Works` with `UdpM_Cleanup`, 34-52 `UdpM_Sweep_Thread`.
  | .workUse r =>
    match s.heap r with
    | some o => if o.work then (if o.live ∧ o.inner then some (.next s) else some .crash) else none
    | none => none
  | .workEnd r =>
    match s.heap r with
    | some o => if o.work ∧ o.server = false then (if o.live then some (.next (s.setObj r { o with work := false })) else some .crash) else none
    | none => none
  | .fatal r =>
    match s.heap r with
    | some o => if o.work then (if o.live then some (.next (s.setObj r { o with work := false, server := false })) else some .crash) else none
    | none => none
  | .sweepUse r =>
    match s.heap r with
    | some o => if o.sweep then (if o.live ∧ o.inner then some (.next s) else some .crash) else none
    | none => none
  | .sweepEnd r =>
    match s.heap r with
    | some o =>
      if o.sweep ∧ o.work = false ∧ o.server = false then
        (if o.live then some (.next (s.setObj r { o with inner := false, sweep := false })) else some .crash)
      else none
    | none => none

/-- The state when the program starts to take queries: with a first version (mmgr.c 752), or without. -/
def init (m : Mode) : Option (List α) → St α
  | none => ⟨fun _ => none, 0, none, none, [], fun _ => .idle, [], [], []⟩
  | some l => ⟨fun i => if i = 0 then some { (newObj m : Obj α) with lines := l } else none, 1, some 0, none, [], fun _ => .idle, [l], [l], []⟩

/-- A schedule; steps that cannot be made are left out.  `none`: freed memory was used. -/
def run (m : Mode) : St α → List (Nat × Act α) → Option (St α)
  | s, [] => some s
  | s, (t, a) :: as =>
    match step m s t a with
    | none => run m s as
    | some .crash => none
    | some (.next s') => run m s' as

end Verif.Reload
