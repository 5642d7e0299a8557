import Verif.Model.StringChunk
import Verif.Model.StringList
import Verif.Model.ReadLine
/-! Model of the server groups of `mmgr.c`: how they are read and which one a query goes to.  A module is its
number in `ModuleArray`.  Parameters are whether a module can be started (`UdpM_Init`, `TcpM_Init`) and the files,
by the path given (`ExpandPathTo` and `fopen`: `none` if the path is too long, `some none` if there is no file). -/

namespace Verif.Groups
open StringChunk (Chunk)

/-- `ModuleName`. -/
inductive Proto where
  | udp
  | tcp
deriving DecidableEq, Repr

/-- mmgr.c 30-34 `ModuleMap`. -/
structure Map where
  modules : List Proto
  dist : Chunk Nat

/-- What a module is started with: servers, parallel or not, proxies (`none` is NULL). -/
structure Args where
  services : List Byte
  parallel : Bool
  proxies : Option (List Byte)
deriving DecidableEq, Repr

/-- The outside. -/
structure World where
  up : Proto → Args → Bool
  file : List Byte → Option (Option (List Byte))

/-- mmgr.c 75-94 `StoreAModule`. -/
def store (m : Map) (p : Proto) : Map := { m with modules := m.modules ++ [p] }

/-- mmgr.c 51-73 `MappingAModule`. -/
def mapping (m : Map) (i : Nat) (domains : List (List Byte)) : Map :=
  { m with dist := domains.foldl (fun c d => c.addDomain d (some i)) m.dist }

/-- mmgr.c 117-128, 205-227: at most 7 bytes are compared, in small letters. -/
def isWord (w s : List Byte) : Bool := strToLower (s.take 7) == w

/-- mmgr.c 96-144 `Udp_Init_Core`; `none` is an error. -/
def udpCore (w : World) (m : Map) (services : Option (List Byte)) (domains : List (List Byte)) (parallel : Option (List Byte)) : Option Map :=
  match services, parallel with
  | some s, some p =>
    let i := m.modules.length
    let m := store m .udp
    if w.up .udp ⟨s, isWord (str "on") p, none⟩ then some (mapping m i domains) else none
  | _, _ => none

/-- mmgr.c 183-242 `Tcp_Init_Core`. -/
def tcpCore (w : World) (m : Map) (services : Option (List Byte)) (domains : List (List Byte)) (parallel proxies : Option (List Byte)) : Option Map :=
  match services, parallel, proxies with
  | some s, some p, some x =>
    let i := m.modules.length
    let m := store m .tcp
    if w.up .tcp ⟨s, isWord (str "on") p, if isWord (str "no") x then none else some x⟩ then some (mapping m i domains) else none
  | _, _, _ => none

/-- A list of strings made by these operations, then mmgr.c 45-49 `DomainList_Tidy`. -/
def tidied (ops : List StringList.Op) : Option (List (List Byte)) :=
  (StringList.run [] (ops ++ [.trim (some (str "\t .")), .lower])).bind StringList.items

/-- mmgr.c 146-181 `Udp_Init`. -/
def udpInit (w : World) (m : Map) (services domains parallel : Option (List Byte)) : Option Map :=
  match domains with
  | none => none
  | some d =>
    match tidied [.add d (some (str ","))] with
    | none => none
    | some ds => udpCore w m services ds parallel

/-- mmgr.c 244-281 `Tcp_Init`. -/
def tcpInit (w : World) (m : Map) (services domains parallel proxies : Option (List Byte)) : Option Map :=
  match domains with
  | none => none
  | some d =>
    match tidied [.add d (some (str ","))] with
    | none => none
    | some ds => tcpCore w m services ds parallel proxies

/-- utils.c 1305-1317 `SplitNameAndValue`: what is left in the buffer, and the value. -/
def splitLine (s : List Byte) : List Byte × Option (List Byte) :=
  let k := s.takeWhile (fun c => c != 32 && c != 9 && c != 61)
  (k, match s.drop k.length with
    | [] => none
    | _ :: r => (StringList.strNpbrk r (str "\t ")).map r.drop)

/-- mmgr.c 391-399: the options and the domains in a file. -/
def fileArgs (c : Chunk (List Byte)) : List (List Byte) → Chunk (List Byte)
  | [] => c
  | l :: ls =>
    match splitLine (strToLower l) with
    | (k, some v) => fileArgs (c.add k (some v)) ls
    | (_, none) => fileArgs c ls

def fileDomains : List (List Byte) → List (List Byte)
  | [] => []
  | l :: ls =>
    match splitLine (strToLower l) with
    | (_, some _) => fileDomains ls
    | (k, none) => k :: fileDomains ls

/-- A value of the file: `StringChunk_Match_NoWildCard` with the pointer left alone if there is none. -/
def arg (c : Chunk (List Byte)) (key : List Byte) (dflt : Option (List Byte)) : Option (List Byte) :=
  match c.matchNoWild key (c.hash key) (fun _ => true) with
  | some v => v
  | none => dflt

/-- mmgr.c 420-459: the domains of the list; the buffer has 384 bytes. -/
def listDomains (w : World) (c : Chunk (List Byte)) : Option (List (List Byte)) :=
  match arg c (str "list") none with
  | none => some []
  | some path =>
    match w.file path with
    | none => none
    | some none => some []
    | some (some content) => (ReadLine.readFile 384 content).map (·.map strToLower)

/-- mmgr.c 461-524: the groups of a file. -/
def fileGroups (w : World) (m : Map) (c : Chunk (List Byte)) (proto : List Byte) (ds : List (List Byte)) : Option Map :=
  if ds = [] then some m
  else
    let any := proto == str "*"
    let udp := any || proto == str "udp"
    let tcp := any || proto == str "tcp"
    let m1 := if udp then udpCore w m (arg c (str "server") none) ds (arg c (str "parallel") (some (str "on"))) else some m
    match m1 with
    | none => none
    | some m1 =>
      if tcp then
        tcpCore w m1 (arg c (str "server") none) ds (arg c (str "parallel") (some (str "on"))) (arg c (str "proxy") (some (str "no")))
      else if udp then some m1
      else none

/-- mmgr.c 314-525 `Modules_InitFromFile`.  Simplified: if the UDP module of a file with both kinds fails, the code
still starts the other one before it gives up. -/
def fileInit (w : World) (m : Map) (path : Option (List Byte)) : Option Map :=
  match path with
  | none => none
  | some p =>
    match w.file p with
    | none => none
    | some none => some m
    | some (some content) =>
      match ReadLine.readFile 384 content with
      | none => none
      | some lines =>
        let c := fileArgs (StringChunk.init bkdrHash) lines
        match arg c (str "protocol") none with
        | none => none
        | some proto =>
          match listDomains w c with
          | none => none
          | some more =>
            match tidied ((fileDomains lines ++ more).map (fun d => .add d none)) with
            | none => none
            | some ds => fileGroups w m c proto ds

/-- mmgr.c 543-573: the loop of `Modules_Init` over the strings of the option. -/
def initLoop (w : World) : Nat → Map → List (List Byte) → Option Map
  | 0, _, _ => none
  | _ + 1, m, [] => some m
  | fuel + 1, m, ty :: r =>
    if ty = str "UDP" then
      match udpInit w m r[0]? r[1]? r[2]? with
      | none => none
      | some m => initLoop w fuel m (r.drop 3)
    else if ty = str "TCP" then
      match tcpInit w m r[0]? r[1]? r[2]? r[3]? with
      | none => none
      | some m => initLoop w fuel m (r.drop 4)
    else if ty = str "FILE" then
      match fileInit w m r[0]? with
      | none => none
      | some m => initLoop w fuel m (r.drop 1)
    else none

/-- mmgr.c 653-732 `Modules_Load`: `none` if it fails and the old one stays. -/
def load (w : World) (conf : List (List Byte)) : Option Map :=
  initLoop w (conf.length + 1) ⟨[], StringChunk.init bkdrHash⟩ conf

/-- The options `EnableUDPtoTCP` and `EnableTCPtoUDP`. -/
structure Opts where
  udpToTcp : Bool
  tcpToUdp : Bool
deriving DecidableEq, Repr

/-- mmgr.c 793-816 `ModuleFitRequest`; `tcp`: the query came by TCP or is to go by TCP (`RequestTcp`). -/
def fits (o : Opts) (tcp : Bool) (p : Proto) : Bool :=
  if tcp then o.tcpToUdp || p != .udp else o.udpToTcp || p != .tcp

/-- mmgr.c 846-874: the number of the module a query is sent to; `none` is -190.  `rnd` is `rand()`, `fnm` `fnmatch`, `id`
the identifier of the query. -/
def route (o : Opts) (m : Map) (fnm : List Byte → List Byte → Bool) (behind : List Byte) (rnd id : Nat) (tcp : Bool) (domain : List Byte)
    (hv : UInt32) : Option Nat :=
  match m.dist.domainMatchWildRandom fnm domain hv (fun d => match d.bind (m.modules[·]?) with | some p => fits o tcp p | none => false) behind rnd with
  | some r => r
  | none => if m.modules.length > 0 then some (id % m.modules.length) else none

end Verif.Groups
