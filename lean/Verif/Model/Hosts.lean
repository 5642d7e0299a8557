import Verif.Model.HostsContainer
import Verif.Model.IHeader
/-! Model of `hosts.c` and `hostsutils.c`: answering from the hosts data.

`fnm` is `fnmatch`, `goodIp` is `GoodIpList_Get` (the four bytes of the first address of a list, if it
exists).  Outer `none` is undefined behaviour. -/

namespace Verif.Hosts
open Msg Generator Parser

variable {Addr : Type}

/-- hostsutils.h 7-12 `HostsUtilsTryResult`. -/
inductive Try where
  | blocked | none | ok | recursed
deriving DecidableEq, Repr

/-- What leaves the hosts code: a reply, or the header and identifier of a query handed to the worker that
resolves aliases (hosts.c 67-75). -/
inductive Out (Addr : Type) where
  | reply (s : Sent Addr)
  | handOver (m : Ctx Addr)
deriving DecidableEq, Repr

/-- hostsutils.c 30-43 `HostsUtils_TypeExisting`. -/
def typeExisting (c : Cont) (fnm : List Byte → List Byte → Bool) (d : List Byte) (ty : HType) : Bool :=
  (find c fnm d ty).isSome

/-- hostsutils.c 45-117 `HostsUtils_Generate` with the callback's type and the node's data: the record is
appended under the name "a". -/
def generateNode (goodIp : List Byte → Option (List Byte)) (g : Gen) (ty : HType) (d : Data) : Option (Int × Gen) :=
  match ty, d with
  | .cname, .text t => some (cname g (str "a") t 60)
  | .a, .addr (some b) => rawData g (str "a") 1 1 ((b.drop 12).take 4) 60
  | .aaaa, .addr (some b) => rawData g (str "a") 28 1 b 60
  | .a, .addr none => none
  | .aaaa, .addr none => none
  | .goodIpList, .text t =>
    match goodIp t with
    | none => some (-96, g)
    | some b => rawData g (str "a") 1 1 b 60
  | _, _ => some (-61, g)

/-- dnsparser.h 92-127: QR set, opcode and AA cleared. -/
def replyFlags2 (b : Byte) : Byte := (b &&& 0x03) ||| 0x80
/-- dnsparser.h 92-127: RA set, RCODE cleared. -/
def replyFlags3 (b : Byte) : Byte := (b &&& 0x70) ||| 0x80

/-- hostsutils.c 203-207 (and dnscache.c): the flags of a reply. -/
def replyFlags (g : Gen) : Gen := { g with out := (g.out.modify 2 replyFlags2).modify 3 replyFlags3 }

/-- hostsutils.c 214-245: from the started reply to the message sent.  Inner `none`: given up. -/
def finish (goodIp : List Byte → Option (List Byte)) (g : Gen) (edns : Bool) (n : HType × Node) :
    Option (Option (List Byte)) :=
  match nextPurpose (replyFlags g) with
  | (g1, p) =>
    if p ≠ .answer then some Option.none
    else
      match generateNode goodIp g1 n.1 n.2.data with
      | Option.none => Option.none
      | some (code, g2) =>
        if code ≠ 0 then some Option.none
        else
          match (if edns then (toAdditional 3 g2).map (fun g3 => Generator.edns g3 1280) else some (0, g2)) with
          | Option.none => Option.none
          | some (code, g3) =>
            if code ≠ 0 then some Option.none
            else
              match compress g3.out with
              | Option.none => Option.none
              | some (l, b) => if l < 0 then some Option.none else some (some b)

/-- hostsutils.c 119-245 `HostsUtils_Try`.  `behind` is the rest of the buffer behind the query, where
the reply is built. -/
def tryOne (fnm : List Byte → List Byte → Bool) (goodIp : List Byte → Option (List Byte)) (c : Cont)
    (behind : List Byte) (m : Ctx Addr) : Option (Try × List (Out Addr)) :=
  if m.type ≠ 5 ∧ typeExisting c fnm m.domain .cname = true then some (.recursed, [])
  else if m.type ≠ 5 ∧ m.type ≠ 1 ∧ m.type ≠ 28 then some (.none, [])
  else
    let ty : HType :=
      if m.type = 5 then .cname
      else if m.type = 28 then .aaaa
      else if typeExisting c fnm m.domain .a then .a else .goodIpList
    match find c fnm m.domain ty with
    | Option.none => some (.none, [])
    | some n =>
      match initFrom behind.length (m.entity ++ behind) m.entity.length true with
      | Option.none => Option.none
      | some g =>
        match finish goodIp g m.edns n with
        | Option.none => Option.none
        | some Option.none => some (.none, [])
        | some (some b) => some (.ok, [.reply (sendBack { m with entity := b })])

/-- statichosts.c 7-8, dynamichosts.c 20, hosts.c 12: the data (`none`: the static data were not inited, or
no dynamic data were loaded) and the option. -/
structure Hosts where
  static : Option Cont
  dynamic : Option Cont
  blockIpv6 : Bool

/-- hosts.c 18-22 `Hosts_TypeExisting`, statichosts.c 60-68, dynamichosts.c `DynamicHosts_TypeExisting`. -/
def Hosts.has (s : Hosts) (fnm : List Byte → List Byte → Bool) (d : List Byte) (ty : HType) : Bool :=
  s.static.any (fun c => typeExisting c fnm d ty) || s.dynamic.any (fun c => typeExisting c fnm d ty)

/-- statichosts.c 70-78 `StaticHosts_Try`, dynamichosts.c `DynamicHosts_Try`. -/
def tryOpt (fnm : List Byte → List Byte → Bool) (goodIp : List Byte → Option (List Byte)) (c : Option Cont)
    (behind : List Byte) (m : Ctx Addr) : Option (Try × List (Out Addr)) :=
  match c with
  | Option.none => some (.none, [])
  | some c => tryOne fnm goodIp c behind m

/-- hosts.c 24-35 `Hosts_Try_Inner`.  Simplification: what the static attempt wrote behind the query before
it gave up is not represented. -/
def tryInner (fnm : List Byte → List Byte → Bool) (goodIp : List Byte → Option (List Byte)) (s : Hosts)
    (behind : List Byte) (m : Ctx Addr) : Option (Try × List (Out Addr)) :=
  match tryOpt fnm goodIp s.static behind m with
  | Option.none => Option.none
  | some (.none, _) => tryOpt fnm goodIp s.dynamic behind m
  | some r => some r

/-- hosts.c 43-84 `Hosts_Try`.  `handOk`: `sendto` to the worker succeeds. -/
def hostsTry (fnm : List Byte → List Byte → Bool) (goodIp : List Byte → Option (List Byte)) (s : Hosts)
    (behind : List Byte) (handOk : Bool) (m : Ctx Addr) : Option (Try × List (Out Addr)) :=
  if s.blockIpv6 = true ∧ m.type = 28 ∧ (s.has fnm m.domain .a = true ∨ s.has fnm m.domain .goodIpList = true) then
    some (.blocked, [])
  else if s.has fnm m.domain .excluded = true then some (.none, [])
  else
    match tryInner fnm goodIp s behind m with
    | Option.none => Option.none
    | some (.recursed, _) =>
      if handOk then some (.recursed, [.handOver { m with entity := m.entity.take 2 }]) else some (.none, [])
    | some r => some r

/-- hosts.c 86-118 `Hosts_Get`: the return value and what is sent. -/
def hostsGet (fnm : List Byte → List Byte → Bool) (goodIp : List Byte → Option (List Byte)) (s : Hosts)
    (behind : List Byte) (handOk : Bool) (m : Ctx Addr) : Option (Int × List (Out Addr)) :=
  match hostsTry fnm goodIp s behind handOk m with
  | Option.none => Option.none
  | some (.blocked, _) => some (0, [.reply (sendBackRefused m)])
  | some (.none, _) => some (-126, [])
  | some (.recursed, o) => some (0, o)
  | some (.ok, o) => some (0, o)

end Verif.Hosts
