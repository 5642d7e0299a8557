import Verif.Model.AddressList
import Verif.Model.StringList
import Verif.Model.TcpPool
import Verif.Model.TcpStream
/-! Model of the addresses of a TCP group (tcpm.c): how they are read, and which of them the system is given when a connection
is begun (`Verif.TcpPool` has only their numbers).  Memory is always found. -/

namespace Verif.TcpUp
open AddressList IpText

/-- The two arrays of `AddressList_GetPtrList`: pointers to addresses (`none`: NULL) and families. -/
structure Ptrs where
  addrs : List (Option Sock)
  families : List Family
deriving DecidableEq, Repr

/-- addresslist.c 218-229: the loop and what is behind it; `n` more from subscript `i`.  `none`: undefined, or NULL with a family
that is never set (there are as many addresses as are counted). -/
def ptrLoop (a : AddrList) : Nat → Nat → Option Ptrs
  | 0, _ => some ⟨[none], [.unspec]⟩
  | n + 1, i =>
    match getBySubscript a (i : Int) with
    | .addr s => (ptrLoop a n (i + 1)).map fun r => ⟨some s :: r.addrs, s.family :: r.families⟩
    | _ => none

/-- addresslist.c 198-230 `AddressList_GetPtrList`. -/
def ptrList (a : AddrList) : Option Ptrs := ptrLoop a a.arr.used 0

/-- tcpm.c 794-797, 854-857: the addresses among the texts; `none`: undefined. -/
def addAll (inet : List Byte → List Byte) (dflt : Nat) : AddrList → List (List Byte) → Option AddrList
  | a, [] => some a
  | a, t :: ts =>
    match addFromString inet a t dflt with
    | none => none
    | some b => addAll inet dflt b ts

/-- tcpm.c 771-804, 832-863: a list of addresses and its arrays, from a text. -/
def read (inet : List Byte → List Byte) (dflt : Nat) (text : List Byte) : Option (AddrList × Ptrs) :=
  match (StringList.run [] [.add text (some (str ", ")), .trim (some (str "\t ."))]).bind StringList.items with
  | none => none
  | some ts =>
    match addAll inet dflt AddressList.init ts with
    | none => none
    | some a => (ptrList a).map fun p => (a, p)

/-- tcpm.h `TcpM`: `ServiceList`, `Services` and `ServiceFamilies`; `SocksProxyList`, `SocksProxies` and `SocksProxyFamilies`
(`none`: `SocksProxies == NULL`). -/
structure Up where
  servers : AddrList × Ptrs
  proxies : Option (AddrList × Ptrs)
deriving DecidableEq, Repr

/-- tcpm.c 742-866 `TcpM_Init`: the addresses. -/
def start (inet : List Byte → List Byte) (services : List Byte) : Option (List Byte) → Option Up
  | none => (read inet 53 services).map fun s => ⟨s, none⟩
  | some ps =>
    match read inet 53 services, read inet 1080 ps with
    | some s, some p => some ⟨s, some p⟩
    | _, _ => none

/-- tcpm.c 167, 175, 822, 881: the numbers of servers and proxies (`AddressList_GetNumberOfAddresses`). -/
def Up.cfg (m : Up) (parallel : Bool) (keep : Int) : TcpPool.Cfg := ⟨m.servers.1.arr.used, m.proxies.map (·.1.arr.used), parallel, keep⟩

/-- What the system is asked for: a socket of a family is connected to an address; or a proxy is asked over a socket to connect to
one. -/
inductive Call where
  | connect (fd : Nat) (f : Family) (to : Sock)
  | ask (fd : Nat) (t : TcpStream.Target)
deriving DecidableEq, Repr

/-- tcpm.c 115-147 `TcpM_Connect_Addr(Families[idx], ServerAddresses[idx])`; `none`: outside the arrays, or at NULL. -/
def connectTo (p : Ptrs) (fd i : Nat) : Option Call :=
  match p.families[i]?, p.addrs[i]? with
  | some f, some (some to) => some (.connect fd f to)
  | _, _ => none

/-- The call for an action of the group.
tcpm.c 158-176, 216: the arrays are those of the proxies if there are any and `IsProxy`; 442-447: the server asked of the proxy. -/
def callOf (m : Up) : TcpPool.Act → Option (Option Call)
  | .conn s viaProxy i =>
    match m.proxies, viaProxy with
    | some p, true => (connectTo p.2 s i).map some
    | _, _ => (connectTo m.servers.2 s i).map some
  | .prep s i _ =>
    match getBySubscript m.servers.1 (i : Int) with
    | .addr to => to.addr.map fun ip => some (.ask s ⟨ip, to.port⟩)
    | _ => none
  | _ => some none

end Verif.TcpUp
