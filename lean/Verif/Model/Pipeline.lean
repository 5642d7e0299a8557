import Verif.Model.Filter
import Verif.Model.Groups
import Verif.Model.Hosts
import Verif.Model.DnsCache
import Verif.Model.MContext
import Verif.Model.IpMisc
/-! Model of the way of a query (`MMgr_Send`, mmgr.c 818-877, and the `Send` functions of the modules) and of a
response (`UdpM_Works`, udpm.c 69-254, and `TcpM_Works`, tcpm.c 523-737). -/

namespace Verif.Pipeline
open Msg MContext

variable {Addr : Type}

/-- What the program is configured with: the filter, the hosts data, the lists of good addresses, the cache
(`cacheOn`: `Inited` of dnscache.c), the server groups, the option `AP`, the address lists (`none`: none are
configured) and `BlockNegativeResponse`.  `fnm` is `fnmatch`. -/
structure Env where
  filter : Filter.State
  hosts : Hosts.Hosts
  goodIp : List Byte → Option (List Byte)
  cacheOn : Bool
  cache : DnsCache.Settings
  groups : Groups.Map
  opts : Groups.Opts
  fnm : List Byte → List Byte → Bool
  ap : Bool
  lists : Option IpChunk.Chunk
  blockNegative : Bool

/-- What a single query meets: the memory behind an empty name, the steps allowed for decoding a name, the clock,
`rand()`, and whether `sendto` to the alias worker (`handOk`) and to a server or TCP worker (`sendOk`) works. -/
structure Luck where
  behindName : List Byte
  fuel : Nat
  now : Int
  rnd : Nat
  handOk : Bool
  sendOk : Bool

/-- dnsparser.h 8, 17 `DNSGetQueryIdentifier` of the memory `b`. -/
def ident (b : List Byte) : UInt16 := UInt16.ofNat ((b.getD 0 0).toNat * 256 + (b.getD 1 0).toNat)

/-- How `MMgr_Send` ends: what is sent by the filter, the hosts code or the cache; or the number of the module the
query is given to; or no module (-190). -/
inductive Outcome (Addr : Type) where
  | refused (o : List (Sent Addr))
  | hosts (o : List (Hosts.Out Addr))
  | cache (o : List (Sent Addr))
  | upstream (i : Nat)
  | nowhere
deriving DecidableEq, Repr

/-- mmgr.c 818-872: the decisions of `MMgr_Send`; `behind` is the rest of the buffer behind the message,
`requestTcp` the header's `RequestTcp`. -/
def decide (e : Env) (c : Cache.St) (x : Luck) (behind : List Byte) (requestTcp : Bool) (m : Ctx Addr) : Option (Outcome Addr) :=
  match Filter.filterOut e.filter e.fnm x.behindName m with
  | (true, o) => some (.refused o)
  | (false, _) =>
    match Hosts.hostsGet e.fnm e.goodIp e.hosts behind x.handOk m with
    | none => none
    | some (code, o) =>
      if code = 0 then some (.hosts o)
      else
        match (if e.cacheOn then DnsCache.fetch e.cache.cfg c behind x.fuel x.now m else some (-792, [])) with
        | none => none
        | some (code, o) =>
          if code = 0 then some (.cache o)
          else
            match Groups.route e.opts e.groups e.fnm x.behindName x.rnd (ident (m.entity ++ behind)).toNat
                (isFromTcp m || requestTcp) m.domain m.hash with
            | some i => some (.upstream i)
            | none => some .nowhere

/-- The header as stored in the table of waiting queries; `b` is the memory behind the header. -/
def entry (b : List Byte) (m : Ctx Addr) : Pending (Ctx Addr) := ⟨ident b, m.hash, m.domain, m.type, m, 0⟩

/-- The state of a module: the waiting queries, the header at the start of the worker's buffer, and for a TCP module
the messages on their way from `TcpM_Send` to the worker. -/
structure Module (Addr : Type) where
  proto : Groups.Proto
  table : Table (Ctx Addr)
  head : Ctx Addr
  inbox : List (Ctx Addr)

/-- udpm.c 257-276 (`UdpM_Send`): the message goes out with EDNS if `ap`, and the query waits.  `b` is the memory
behind the header. -/
def udpSend (e : Env) (x : Luck) (b : List Byte) (m : Ctx Addr) (d : Module Addr) : Option (Ctx Addr × Module Addr) :=
  match addFakeEdns e.ap b.length 4 m with
  | none => none
  | some m' => some (m', { d with table := add d.table x.now (entry b m') })

/-- tcpm.c 472-489 `TcpM_Send`: header and message go to the worker. -/
def tcpSend (x : Luck) (m : Ctx Addr) (d : Module Addr) : Module Addr :=
  if x.sendOk then { d with inbox := d.inbox ++ [m] } else d

/-- tcpm.c 571-606: the TCP worker takes a message from `TcpM_Send`; `rest` is what its buffer holds behind. -/
def tcpTake (now : Int) (rest : List Byte) (m : Ctx Addr) (d : Module Addr) : Module Addr :=
  { d with table := add d.table now (entry (m.entity ++ rest) m), head := m }

/-- ipmisc.c 373-393 `IPMiscMapping_Process` of a message of `len` bytes. -/
def misc (e : Env) (b : List Byte) (len : Nat) : Option (IpMisc.Verdict × List Byte) :=
  match e.lists with
  | none => some (.nothing, b)
  | some l => IpMisc.process l e.blockNegative b len

/-- dnscache.c 633-675 `DNSCache_AddItemsToCache`, nothing if the cache is off. -/
def learn (e : Env) (b : List Byte) (len fuel : Nat) (question behindName : List Byte) (clock : Nat → Int) (first : Bool) :
    Option (List Cache.Op) :=
  if e.cacheOn then DnsCache.addOps e.cache b len fuel question behindName clock first else some []

/-- udpm.c 187-252, tcpm.c 688-737: a response of `len` bytes at the start of the buffer `b`: the module afterwards,
the operations on the cache, and what is sent with which header.  The return value of `IHeader_Fill` is
ignored.  `clock` is read for each record. -/
def respond (e : Env) (b : List Byte) (len fuel : Nat) (behindName : List Byte) (clock : Nat → Int) (d : Module Addr) :
    Option (Module Addr × List Cache.Op × List (Ctx Addr)) :=
  match fill d.head false b len none 0 [] fuel with
  | none => none
  | some (_, h) =>
    match misc e b h.entity.length with
    | none => none
    | some (v, b') =>
      let h := { h with entity := b'.take h.entity.length }
      if v ≠ .nothing then some ({ d with head := h }, [], [])
      else if isBlocked e.ap h then some ({ d with head := h }, [], [])
      else
        match genAnswerHeaderAndRemove d.table (entry b' h) with
        | (none, t) =>
          match learn e b' h.entity.length fuel h.domain behindName clock false with
          | none => none
          | some ops => some ({ d with table := t, head := h }, ops, [])
        | (some p, t) =>
          let h' := { p.client with entity := h.entity, edns := h.edns }
          match learn e b' h'.entity.length fuel h'.domain behindName clock true with
          | none => none
          | some ops => some ({ d with table := t, head := h' }, ops, [h'])

end Verif.Pipeline
