import Verif.Model.StringChunk
import Verif.Model.SocketPool
import Verif.Model.IpText
/-! Model of `goodiplist.c`: named lists of addresses, of which the one that answers fastest is handed out.

The lists live in the additional data of the string table, which does not move; here the table holds numbers of lists.
Memory is always found.  A value that was never assigned is `none` where it is only copied, and undefined behaviour
(`none` as the result of the function) where the program depends on it. -/

namespace Verif.GoodIpList
open IpText (isSpace skipSpace scanDec)

/-- `sscanf` with `%<n>s`: the word and what follows it. -/
def scanWord (n : Nat) (s : List Byte) : Option (List Byte × List Byte) :=
  let t := skipSpace s
  let w := (t.take n).takeWhile (fun c => !isSpace c)
  if w = [] then none else some (w, t.drop w.length)

/-- `sscanf` with `%<n>[...]`: the characters of the set and what follows them. -/
def scanSet (n : Nat) (p : Byte → Bool) (s : List Byte) : Option (List Byte × List Byte) :=
  let w := (s.take n).takeWhile p
  if w = [] then none else some (w, s.drop w.length)

/-- An element of a list, `struct sockaddr_in`; `none`: never assigned. -/
structure Addr where
  ip : Option (List Byte)
  port : Option Nat
deriving DecidableEq, Repr

/-- goodiplist.c 11-14 `ListInfo`. -/
structure Info where
  interval : Int
  list : List Addr
deriving DecidableEq, Repr

/-- goodiplist.c 16 `GoodIpList` and the lists its entries hold (goodiplist.c 11-14). -/
structure State where
  chunk : StringChunk.Chunk Nat
  infos : List Info

/-- goodiplist.c 147-152: `sscanf(Itr, "%127s%d", n, &Interval)`, the interval being 0 before.  `none`: the number
does not fit. -/
def scanList (s : List Byte) : Option (Option (List Byte) × Int) :=
  match scanWord 127 s with
  | none => some (none, 0)
  | some (n, r) =>
    match scanDec r with
    | .fail => some (some n, 0)
    | .undef => none
    | .ok v _ => some (some n, v)

/-- goodiplist.c 145-162: one round of the loop of `InitListsAndTimes`. -/
def addList (st : State) (s : List Byte) : Option State :=
  match scanList s with
  | none => none
  | some (n, v) =>
    if v ≤ 0 then some st
    else match n with
      | none => none
      | some n => some ⟨st.chunk.add n (some st.infos.length), st.infos ++ [⟨v, []⟩]⟩

/-- goodiplist.c 122-169 `InitListsAndTimes`; `none` inside: there is no such option and the function returns -1. -/
def initLists (hash : List Byte → UInt32) (l : Option (List (List Byte))) : Option (Option State) :=
  match l with
  | none => some none
  | some l => (l.foldlM addList ⟨StringChunk.init hash, []⟩).map some

/-- goodiplist.c 196: `sscanf(Itr, "%127s%*[^0123456789]%15[^:]:%d", n, ip_str, &Port)`; the name, the text of the
address and the port, `none` where nothing was assigned.  `none`: the number does not fit. -/
def scanAdd (s : List Byte) : Option (Option (List Byte) × Option (List Byte) × Option Int) :=
  match scanWord 127 s with
  | none => some (none, none, none)
  | some (n, r) =>
    match scanSet r.length (fun c => !(48 ≤ c && c ≤ 57)) r with
    | none => some (some n, none, none)
    | some (_, r) =>
      match scanSet 15 (fun c => c != 58) r with
      | none => some (some n, none, none)
      | some (ip, 58 :: r) =>
        match scanDec r with
        | .fail => some (some n, some ip, none)
        | .undef => none
        | .ok v _ => some (some n, some ip, some v)
      | some (ip, _) => some (some n, some ip, none)

/-- The number of the list with this name: `StringChunk_Match_NoWildCard` (its data are never NULL here). -/
def State.find (st : State) (n : List Byte) : Option Nat := (st.chunk.matchNoWild n (st.chunk.hash n) (fun _ => true)).join

/-- goodiplist.c 190-217: one round of the loop of `AddToLists`.  `htons` keeps the low 16 bits of the port.  The
address is what `IPv4AddressToNum` left, whatever it returned. -/
def addIp (st : State) (s : List Byte) : Option State :=
  match scanAdd s with
  | some (some n, some ip, port) =>
    match IpText.v4ToNum ip with
    | .undef => none
    | .ret _ b =>
      match st.find n with
      | none => some st
      | some k => some { st with infos := st.infos.modify k (fun i => { i with list := i.list ++ [⟨b, port.map (fun v => (v % 65536).toNat)⟩] }) }
  | _ => none

/-- A task of the timer (goodiplist.c 233-240): run every `interval` for the list with this number. -/
structure Task where
  interval : Int
  name : List Byte
  list : Nat
deriving DecidableEq, Repr

/-- goodiplist.c 223-248 `AddTask`: one persistent task for each entry of the table. -/
def State.tasks (st : State) : List Task :=
  st.chunk.ht.nodes.filterMap (fun nd => match nd.data.data with
    | none => none
    | some k => (st.infos[k]?).map (fun i => ⟨i.interval, nd.data.str, k⟩))

/-- goodiplist.c 259-275 `GoodIpList_Init` with the strings of the options `GoodIPList` and `GoodIPListAddIP`: the
lists (`none`: `GoodIpList` stays NULL) and the tasks. -/
def load (hash : List Byte → UInt32) (lists ips : Option (List (List Byte))) : Option (Option State × List Task) :=
  match initLists hash lists with
  | none => none
  | some none => some (none, [])
  | some (some st) =>
    match ips with
    | none => some (some st, [])
    | some l => (l.foldlM addIp st).map (fun st => (some st, st.tasks))

/-- goodiplist.c 277-300 `GoodIpList_Get`: the address of the first element (`some none`: four bytes never assigned);
`none`: NULL. -/
def get (st : Option State) (n : List Byte) : Option (Option (List Byte)) :=
  match st with
  | none => none
  | some st =>
    match st.find n with
    | none => none
    | some k =>
      match st.infos[k]? with
      | none => none
      | some i => (i.list[0]?).map (·.ip)

/-- What the system does with one address during a check: the descriptor `socket` gives, if any, whether it can be
made non-blocking, whether `connect` started (it returned 0 or failed with an error that is not fatal), and when the
attempt ended (milliseconds after the start) and whether with a connection; `none`: not within five seconds. -/
structure Try where
  sock : Option Nat
  nonBlock : Bool
  started : Bool
  reply : Option (Nat × Bool)
deriving DecidableEq, Repr

/-- goodiplist.c 33-59: the loop of `CheckAList` from address `i` on: the sockets watched, those opened and those
closed.  `none`: undefined behaviour. -/
def openAll (p : SocketPool.Puller Nat) (i : Nat) (opened closed : List Nat) :
    List Try → Option (SocketPool.Puller Nat × List Nat × List Nat)
  | [] => some (p, opened, closed)
  | t :: ts =>
    match t.sock with
    | none => openAll p (i + 1) opened closed ts
    | some s =>
      if !t.nonBlock then openAll p (i + 1) (opened ++ [s]) closed ts
      else if !t.started then openAll p (i + 1) (opened ++ [s]) (closed ++ [s]) ts
      else match p.add s (some i) with
        | none => none
        | some p => openAll p (i + 1) (opened ++ [s]) closed ts

/-- `select` sees at the time `now` that socket `s` can be written: the attempt to connect has ended, well or badly. -/
def writable (ts : List Try) (now : Nat) (s : Nat) : Bool :=
  ts.any (fun t => t.sock == some s && t.started && t.nonBlock && (match t.reply with | none => false | some (m, _) => m ≤ now))

/-- goodiplist.c 19-76 `CheckAList` with `select` returning at the time `now`: the index of the address returned, the
sockets opened and those closed. -/
def checkAList (ts : List Try) (now : Nat) : Option (Option Nat × List Nat × List Nat) :=
  match openAll SocketPool.Puller.init 0 [] [] ts with
  | none => none
  | some (p, opened, closed) =>
    some ((p.select (writable ts now)).bind (fun e => e.2.2), opened, closed ++ SocketPool.closeAll p.pool none)

/-- goodiplist.c 103-113: the fastest and the first change places. -/
def swapFirst (l : List Addr) (k : Nat) : List Addr :=
  match l[0]?, l[k]? with
  | some f, some t => (l.set k f).set 0 t
  | _, _ => l

/-- goodiplist.c 78-119 `ThreadJod` for list `k`: there are as many tries as addresses. -/
def check (st : State) (k : Nat) (ts : List Try) (now : Nat) : Option State :=
  match st.infos[k]? with
  | none => some st
  | some i =>
    match checkAList (ts.take i.list.length) now with
    | none => none
    | some (none, _, _) => some st
    | some (some f, _, _) => some { st with infos := st.infos.modify k (fun i => { i with list := swapFirst i.list f }) }

end Verif.GoodIpList
