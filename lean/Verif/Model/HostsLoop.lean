import Verif.Model.Hosts
import Verif.Model.MContext
/-! Model of the worker that resolves aliases of the hosts data (`Hosts_SocketLoop`, hosts.c 119-301;
hostsutils.c 257-440). -/

namespace Verif.HostsLoop
open Msg Generator Parser MContext

/-- Where a reply goes: to a client, or to the outer socket of the alias worker; then the header's `Parent`
(the place of the query that waits for the alias) and `RequestTcp` come back with it. -/
inductive Dest (Addr : Type) where
  | client (a : Addr)
  | loop (parent : Nat) (tcp : Bool)
deriving DecidableEq, Repr

variable {Addr : Type}

/-- hosts.c 36-40 `Hosts_GetCName`, hostsutils.c 6-28. -/
def getCName (fnm : List Byte → List Byte → Bool) (s : Hosts.Hosts) (d : List Byte) : Option (List Byte) :=
  let one (c : Option Hosts.Cont) : Option (List Byte) :=
    match c.bind (fun c => Hosts.find c fnm d .cname) with
    | some (_, n) => match n.data with | .text t => some t | _ => none
    | none => none
  (one s.static).or (one s.dynamic)

/-- hostsutils.c 266-273: the header of the query. -/
def queryHeader : List Byte := [0, 0, 1, 0, 0, 0, 0, 0, 0, 0, 0, 0]

/-- hostsutils.c 257-318 `HostsUtils_GenerateQuery` into a buffer with room for `cap` bytes that holds the header
`h`; `back` with the socket `sock` is where the reply is to go.  The code and the header with the message. -/
def generateQuery (h : Ctx Addr) (cap id : Nat) (name : List Byte) (type : Nat) (back : Addr) (sock fuel : Nat) : Option (Int × Ctx Addr) :=
  match initFrom cap queryHeader 12 false with
  | none => none
  | some g =>
    match question (setIdentifier g id) name type 1 with
    | (code, g) =>
      if code ≠ 0 then some (-328, h)
      else
        match fill h true (g.out ++ List.replicate (cap - g.out.length) 0) g.out.length (some back) sock (str "CNameRedirect") fuel with
        | none => none
        | some (code, h) => some (if code ≠ 0 then -309 else 0, h)

/-- hostsutils.c 381-414: the answers of the response that are copied, at most `n` records.  The code and the
generator. -/
def copyLoop (b : List Byte) (len fuel : Nat) (c : Counts) : Nat → Itr → Gen → Option (Int × Gen)
  | 0, _, _ => none
  | n + 1, it, g =>
    match next b len c it with
    | none => none
    | some (_, none) => some (0, g)
    | some (it', some p) =>
      if it'.purpose ≠ .answer then some (0, g)
      else
        match rowData b p, getTTL b p with
        | some row, some ttl =>
          match (if it'.type = 5 then copyCName g (memAt b) p row it'.type it'.klass ttl fuel
            else if it'.type = 1 then copyAddr g (memAt b) 1 4 p row it'.type it'.klass ttl fuel
            else if it'.type = 28 then copyAddr g (memAt b) 28 16 p row it'.type it'.klass ttl fuel
            else some (0, g)) with
          | none => none
          | some (code, g') => if code ≠ 0 then some (code, g') else copyLoop b len fuel c n it' g'
        | _, _ => none

/-- hostsutils.c 321-440 `HostsUtils_CombineRecursedResponse`: the reply to the query with header `m` (whose message
starts with the identifier `id`) from the response in the first `len` bytes of `b`, which answers the query for
`target`.  Inner `none`: given up. -/
def combine (m : Ctx Addr) (cap id : Nat) (b : List Byte) (len fuel : Nat) (target : List Byte) : Option (Option (List Byte)) :=
  if initOk len = false then some none
  else
    match counts b, initEmpty cap (set16 id ++ [0, 0]) with
    | some c, some g =>
      match question (setIdentifier (copyHeader g b) id) m.domain m.type 1 with
      | (code, g) =>
        if code ≠ 0 then some none
        else
          match nextPurpose g with
          | (g, p) =>
            if p ≠ .answer then some none
            else
              match cname g m.domain target 60 with
              | (code, g) =>
                if code ≠ 0 then some none
                else
                  match gotoAnswers b len c Itr.init with
                  | none => none
                  | some it =>
                    match copyLoop b len fuel c (c.all + 2) it g with
                    | none => none
                    | some (code, g) =>
                      if code ≠ 0 then some none
                      else
                        match (if m.edns then (toAdditional 3 g).map (fun g => Generator.edns g 1280) else some (0, g)) with
                        | none => none
                        | some (code, g) =>
                          if code ≠ 0 then some none
                          else
                            match compress g.out with
                            | none => none
                            | some (l, out) => if l < 0 then some none else some (some out)
    | _, _ => none

/-- The state of the worker: the queries waiting for their alias, and what the memory of the table's nodes holds
(a node that was deleted keeps its contents until it is used again). -/
structure Loop (Addr : Type) where
  table : Table (Ctx (Dest Addr))
  mem : Nat → Option (Pending (Ctx (Dest Addr)))

/-- hosts.c 200-252: a header comes from `Hosts_Try`: the query for its alias, to be sent with the header
returned.  `h` is what the outer buffer held. -/
def inner (fnm : List Byte → List Byte → Bool) (hosts : Hosts.Hosts) (cap : Nat) (now : Int) (rnd fuel sock : Nat)
    (h m : Ctx (Dest Addr)) (s : Loop Addr) : Option (Loop Addr × Option (Ctx (Dest Addr))) :=
  match getCName fnm hosts m.domain with
  | none => some (s, none)
  | some target =>
    match generateQuery h cap rnd target m.type (.loop 0 (isFromTcp m)) sock fuel with
    | none => none
    | some (code, q) =>
      if code ≠ 0 then some (s, none)
      else
        let p : Pending (Ctx (Dest Addr)) := ⟨UInt16.ofNat (get16 m.entity 0), m.hash, m.domain, m.type, m, now⟩
        let (a, t) := s.table.add MContext.compare p
        some (⟨t, fun i => if i = a then some p else s.mem i⟩, some { q with back := some (.loop a (isFromTcp m)) })

/-- iheader.c 10-19 `IHeader_Reset` of a stored query. -/
def reset (p : Pending (Ctx (Dest Addr))) : Pending (Ctx (Dest Addr)) :=
  { p with hash := 0, domain := [], client := { p.client with back := none, domain := [], hash := 0, edns := false, agent := [] } }

/-- hosts.c 254-296: a response with header comes from the outer socket; `parent` is its header's `Parent`, `target`
its domain, `b` the memory behind the header.  `len` is the number of bytes received, the header included.  The
header and message to be sent back, if any.  A response whose `Parent` was never used is outside the model. -/
def outer (cap : Nat) (b : List Byte) (len fuel : Nat) (parent : Nat) (target : List Byte) (s : Loop Addr) :
    Option (Loop Addr × Option (Ctx (Dest Addr))) :=
  match s.mem parent with
  | none => none
  | some r =>
    match s.table.search MContext.compare r with
    | none => some (s, none)
    | some (a, p) =>
      let s' : Loop Addr := ⟨s.table.delete a, fun i => if i = a then some (reset p) else s.mem i⟩
      let m := { p.client with edns := r.client.edns }
      match combine m cap r.id.toNat b len fuel target with
      | none => none
      | some none => some (s', none)
      | some (some out) => some (s', some { m with entity := out })

end Verif.HostsLoop
