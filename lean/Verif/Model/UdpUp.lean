import Verif.Model.AddressList
import Verif.Model.StringList
/-! Model of the sockets and the servers of a UDP group (udpm.c): to whom queries are sent, over which socket, and when
the socket and the server are changed.  What is done with a message is in `Verif.Pipeline`, the table of waiting queries
in `Verif.MContext`.

Simplification: the worker, the sweeper and the threads that send take turns, one event at a time; see `Verif.Lifecycle`
for what happens in between.  `CountOfTimeout` is a natural number: it counts queries that were not answered since
anything was received, and is cleared when a socket is made. -/

namespace Verif.UdpUp
open AddressList IpText

/-- udpm.h `UdpM`: `AddrList`, `Parallels`, `Departure` (descriptor and family), `CountOfTimeout`, and whether the worker
runs. -/
structure Up where
  list : AddrList
  par : Option (Family × List Sock)
  sock : Option (Nat × Family)
  timeouts : Nat
  running : Bool
deriving DecidableEq, Repr

/-- What `UdpM_Init` does: undefined behaviour, an error, or a group. -/
inductive Started where
  | undef
  | failed
  | ok (m : Up)
deriving DecidableEq, Repr

/-- udpm.c 357-362: the addresses among the texts; `none`: undefined. -/
def addAll (inet : List Byte → List Byte) : AddrList → List (List Byte) → Option AddrList
  | a, [] => some a
  | a, t :: ts =>
    match addFromString inet a t 53 with
    | none => none
    | some b => addAll inet b ts

/-- udpm.c 330-427 `UdpM_Init` for the servers named in `services`.  (Memory is always found.) -/
def start (inet : List Byte → List Byte) (services : List Byte) (parallel : Bool) : Started :=
  match (StringList.run [] [.add services (some (str ", ")), .trim (some (str "\t ."))]).bind StringList.items with
  | none => .undef
  | some ts =>
    match addAll inet AddressList.init ts with
    | none => .undef
    | some a =>
      if parallel then
        match getBySubscript a 0 with
        | .undef => .undef
        | .null => .failed
        | .addr s =>
          match ofFamily a s.family with
          | none => .undef
          | some l => .ok ⟨a, some (s.family, l), none, 0, true⟩
      else .ok ⟨a, none, none, 0, true⟩

/-- What waiting for a message (udpm.c 144-185) gives: an error, nothing within ten seconds, or a message with its sender
(`recvfrom`; at most `LEFT_LENGTH` bytes). -/
inductive Waited where
  | error
  | nothing
  | message (sender : Sock) (bytes : List Byte)
deriving DecidableEq, Repr

/-- What happens: the worker makes a socket if it has none (`none`: the system has none left), it waits for a message, a
query is sent, a sweep finds `n` queries that waited too long, the group is stopped. -/
inductive Ev where
  | make (fd : Option Nat)
  | wait (w : Waited)
  | send (bytes : List Byte)
  | sweep (n : Nat)
  | stop
deriving DecidableEq, Repr

/-- What the system is told, and the messages that are looked at. -/
inductive Act where
  | opened (fd : Nat) (f : Family)
  | closed (fd : Nat)
  | sendto (fd : Nat) (f : Family) (dest : Sock) (bytes : List Byte)
  | taken (bytes : List Byte)
deriving DecidableEq, Repr

/-- udpm.c 106-119: the family of the next socket; outer `none`: undefined, inner `none`: there is no address. -/
def nextFamily (m : Up) : Option (Option Family) :=
  match m.par with
  | some (f, _) => some (some f)
  | none =>
    match getOne m.list with
    | .undef => none
    | .null => some none
    | .addr s => some (some s.family)

/-- udpm.c 151-152, 162-164, 58-59: the socket is closed. -/
def drop (m : Up) : Up × List Act :=
  match m.sock with
  | none => (m, [])
  | some (fd, _) => ({ m with sock := none }, [.closed fd])

/-- One event; `none`: undefined. -/
def step (m : Up) : Ev → Option (Up × List Act)
  -- udpm.c 100-142, and `UdpM_Cleanup` (54-67) if there is no socket.
  | .make r =>
    if m.running = false then some (m, [])
    else
      match m.sock with
      | some _ => some (m, [])
      | none =>
        match nextFamily m with
        | none => none
        | some none => some ({ m with running := false }, [])
        | some (some f) =>
          match r with
          | none => some ({ m with running := false }, [])
          | some fd => some ({ m with sock := some (fd, f), timeouts := 0 }, [.opened fd f])
  -- udpm.c 144-189.
  | .wait w =>
    match m.sock with
    | none => some (m, [])
    | some _ =>
      match w with
      | .error => some (drop m)
      | .nothing => if m.timeouts > 8 then some (drop m) else some (m, [])
      | .message _ bytes => if bytes = [] then some (m, []) else some ({ m with timeouts := 0 }, [.taken bytes])
  -- udpm.c 275-324.
  | .send bytes =>
    match m.sock with
    | none => some (m, [])
    | some (fd, f) =>
      match m.par with
      | some (_, l) => some (m, l.map (fun s => .sendto fd f s bytes))
      | none =>
        match getOne m.list with
        | .undef => none
        | .null => some (m, [])
        | .addr s => some (m, [.sendto fd f s bytes])
  -- udpm.c 12-32, mcontext.c 39-51.
  | .sweep n => some (if n = 0 then m else { m with timeouts := m.timeouts + n, list := advance m.list }, [])
  -- mmgr.c 612-640 (`IsServer` is cleared), udpm.c 96, 254 and `UdpM_Cleanup`.
  | .stop => some ({ (drop m).1 with running := false }, (drop m).2)

/-- A history; `none`: undefined. -/
def run (m : Up) : List Ev → Option (Up × List Act)
  | [] => some (m, [])
  | ev :: evs =>
    match step m ev with
    | none => none
    | some (m', a) =>
      match run m' evs with
      | none => none
      | some (m'', as) => some (m'', a ++ as)

end Verif.UdpUp
