import Verif.Model.AddressList
/-! Model of `TryBindLocal` (utils.c 1266-1303): the sockets over which parts of the program speak to each other. -/

namespace Verif.Local
open AddressList IpText

/-- What `socket` and `bind` do at one attempt. -/
inductive Try where
  | noSocket
  | refused (fd : Nat)
  | bound (fd : Nat)
deriving DecidableEq, Repr

/-- What the system is told. -/
inductive Act where
  | opened (fd : Nat)
  | bind (fd : Nat) (to : Sock)
  | closed (fd : Nat)
deriving DecidableEq, Repr

/-- utils.c 1268. -/
def loopback (ipv6 : Bool) : List Byte := if ipv6 then str "[::1]" else str "127.0.0.1"

/-- utils.c 1275-1295: the attempts that are left (`MaxTime`), from the port `port` on.  The result is undefined, or the
socket and its address, if any, with what was done.  `in_port_t` has 16 bits (addresslist.c 46, 72, 94, 100). -/
def attempts (inet : List Byte → List Byte) (ipv6 : Bool) (sys : Nat → Try) : Nat → Nat → Option (Option (Nat × Sock) × List Act)
  | 0, _ => some (none, [])
  | n + 1, port =>
    match convert inet (loopback ipv6) (port % 65536) with
    | .ok a =>
      match sys port with
      | .noSocket => attempts inet ipv6 sys n (port + 1)
      | .refused fd => (attempts inet ipv6 sys n (port + 1)).map (fun r => (r.1, .opened fd :: .bind fd a :: .closed fd :: r.2))
      | .bound fd => some (some (fd, a), [.opened fd, .bind fd a])
    | _ => none

/-- utils.c 1266-1303 `TryBindLocal`. -/
def tryBind (inet : List Byte → List Byte) (ipv6 : Bool) (sys : Nat → Try) (start : Nat) : Option (Option (Nat × Sock) × List Act) :=
  attempts inet ipv6 sys 10000 start

/-- The sockets of the program, each with the port to start with: hosts.c 317 (10200) and 150 (10300), tcpm.c 762 (10400, for
each TCP group).  `sys` may depend on the addresses in use and on the kind of the address.  The result: those that were got. -/
def channels (inet : List Byte → List Byte) (sys : List Sock → Bool → Nat → Try) : List Sock → List (Bool × Nat) → Option (List Sock)
  | used, [] => some used
  | used, (ipv6, start) :: l =>
    match tryBind inet ipv6 (sys used ipv6) start with
    | none => none
    | some (none, _) => channels inet sys used l
    | some (some (_, a), _) => channels inet sys (used ++ [a]) l

end Verif.Local
