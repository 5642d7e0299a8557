import Verif.Model.StringChunk
import Verif.Model.IpChunk
/-! Model of `hostscontainer.c`: the table of hosts entries.  `ctype.h` classes are those of the "C" locale
(false for bytes of 128 and more).  Memory is always found.  `none` is undefined behaviour. -/

namespace Verif.Hosts
open StringChunk IpText

/-- hostscontainer.h 8-16 `HostsRecordType` (the value TOO_LONG is never used). -/
inductive HType where
  | unknown | a | aaaa | cname | excluded | goodIpList
deriving DecidableEq, Repr

/-- C library `isdigit`, `isalpha`, `isxdigit`, `isalnum`. -/
def isDigit (c : Byte) : Bool := 48 ≤ c && c ≤ 57
def isAlpha (c : Byte) : Bool := (65 ≤ c && c ≤ 90) || (97 ≤ c && c ≤ 122)
def isXDigit (c : Byte) : Bool := isDigit c || (65 ≤ c && c ≤ 70) || (97 ≤ c && c ≤ 102)
def isAlnum (c : Byte) : Bool := isDigit c || isAlpha c

/-- hostscontainer.c 15-79 `HostsContainer_DetermineType` (never NULL). -/
def determineType (s : List Byte) : HType :=
  if s.head? = some 60 ∧ s.getLast? = some 62 then .goodIpList
  else if s.head? = some 64 ∧ s[1]? = some 64 then .excluded
  else if s.head?.any isXDigit then
    if (58 : Byte) ∈ s then .aaaa
    else if s.any (fun c => isAlpha c || c == 45) then .cname
    else if s.any (fun c => isDigit c || c == 46) then .a
    else .unknown
  else if s.head? = some 58 then .aaaa
  else if s.any (fun c => !isAlnum c && c != 45 && c != 46) then .unknown
  else .cname

/-- What a node's `Data` points to: nothing, an address (the 16 bytes of `IpAddr.Addr`; `none` when they
were never determined) or a string. -/
inductive Data where
  | nothing
  | addr (bytes : Option (List Byte))
  | text (s : List Byte)
deriving DecidableEq, Repr

/-- hostscontainer.c 7-13 `TableNode`; `next` is the number of a node in the order of creation. -/
structure Node where
  next : Option Nat
  type : HType
  data : Data
deriving DecidableEq, Repr

/-- hostscontainer.h 28-46 `HostsContainer`: the key table, whose data are the first nodes, and the nodes
(`Table`).  Equal addresses share their storage in `TableIPAddr` (hostscontainer.c 181-208); they are never
changed, so that each node has its own copy here. -/
structure Cont where
  mappings : Chunk Nat
  table : List Node

/-- hostscontainer.c 430-455 `HostsContainer_Init`. -/
def initCont : Cont := ⟨StringChunk.init bkdrHash, []⟩

/-- hostscontainer.c 141-164 `HostsContainer_FindExist`: the number of the key's first node. -/
def findExist (c : Cont) (name : List Byte) : Option Nat :=
  match c.mappings.matchExactly name (c.mappings.hash name) (fun _ => true) with
  | some (some i) => some i
  | _ => none

/-- hostscontainer.c 166-264 `HostsContainer_AddNode`: a new key gets its first node, otherwise the node
is put directly behind the key's first node. -/
def addNode (c : Cont) (name : List Byte) (ty : HType) (d : Data) : Option Cont :=
  match findExist c name with
  | none => some ⟨c.mappings.add name (some c.table.length), c.table ++ [⟨none, ty, d⟩]⟩
  | some i =>
    match c.table[i]? with
    | none => none
    | some e =>
      some ⟨c.mappings, (c.table ++ [(⟨e.next, ty, d⟩ : Node)]).set i { e with next := some c.table.length }⟩

/-- hostscontainer.c 266-283 `AddIP` with ipchunk.c 63-92 `IpAddr_Parse`, whose return value is ignored:
the bytes of the address.  Outer `none`: undefined behaviour in the conversion. -/
def addrBytes (s : List Byte) : Option (Option (List Byte)) :=
  match s.find? (fun c => c == 46 || c == 58) with
  | none => some (some (List.replicate 16 0))
  | some c =>
    match (if c = 46 then v4ToNum s else v6ToNum s) with
    | .undef => none
    | .ret _ buf => some (if c = 46 then buf.map (IpChunk.prefix4 ++ ·) else buf)

/-- hostscontainer.c 299-313: `sscanf(ListName, "<%127[^>]", Trimed)` for a text starting with `<`.  If
nothing is between the marks, `Trimed` is used uninitialised. -/
def listName (s : List Byte) : Option (List Byte) :=
  let t := (s.tail.takeWhile (· != 62)).take 127
  if t = [] then none else some t

/-- hostscontainer.c 327-388 `HostsContainer_Add`. -/
def add (c : Cont) (w name : List Byte) : Option Cont :=
  match determineType w with
  | .a => match addrBytes w with | none => none | some b => addNode c name .a (.addr b)
  | .aaaa => match addrBytes w with | none => none | some b => addNode c name .aaaa (.addr b)
  | .cname => addNode c name .cname (.text w)
  | .excluded => addNode c name .excluded .nothing
  | .goodIpList => match listName w with | none => none | some t => addNode c name .goodIpList (.text t)
  | .unknown => some c

/-- C library `sscanf`, conversion `%128s`: white space is skipped, then at most 128 bytes are taken up to
white space. -/
def scanWord (s : List Byte) : Option (List Byte × List Byte) :=
  let t := skipSpace s
  let w := (t.takeWhile (fun c => !isSpace c)).take 128
  if w = [] then none else some (w, t.drop w.length)

/-- hostscontainer.c 395-402: the two words of a line. -/
def scan2 (line : List Byte) : Option (List Byte × List Byte) :=
  match scanWord line with
  | none => none
  | some (w, r) =>
    match scanWord r with
    | none => none
    | some (n, _) => some (w, n)

/-- hostscontainer.c 390-408 `HostsContainer_Load`. -/
def load (c : Cont) (line : List Byte) : Option Cont :=
  match scan2 line with
  | none => some c
  | some (w, n) => add c w n

/-- statichosts.c 34-40, dynamichosts.c 67-82: the lines one after the other. -/
def loadAll (c : Cont) : List (List Byte) → Option Cont
  | [] => some c
  | l :: r =>
    match load c l with
    | none => none
    | some c' => loadAll c' r

/-- hostscontainer.c 110-128: the loop of `HostsContainer_Find` from a node on, at most as many rounds as
there are nodes.  The result is the node together with the type given to the callback. -/
def findLoop (table : List Node) (ty : HType) : Nat → Option Nat → Option Node → Option (HType × Node)
  | _, none, v4 => v4.map (fun n => (ty, n))
  | 0, some _, _ => none
  | fuel + 1, some i, v4 =>
    match table[i]? with
    | none => none
    | some n =>
      if ty = .unknown ∨ n.type = ty then some (n.type, n)
      else findLoop table ty fuel n.next (if ty = .aaaa ∧ n.type = .a ∧ v4 = none then some n else v4)

/-- hostscontainer.c 90-139 `HostsContainer_Find`.  `fnm` is `fnmatch`, see `StringChunk`. -/
def find (c : Cont) (fnm : List Byte → List Byte → Bool) (name : List Byte) (ty : HType) :
    Option (HType × Node) :=
  match c.mappings.match_ fnm name (c.mappings.hash name) (fun _ => true) with
  | some (some i) => findLoop c.table ty c.table.length (some i) none
  | _ => none

end Verif.Hosts
