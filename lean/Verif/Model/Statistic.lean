import Verif.Model.StringChunk
import Verif.Model.IpText
/-! Model of `domainstatistic.c`: counters of queries by domain, written to a page from time to time.

The lock makes each call of `DomainStatistic_Add` and each change of `SkipStatistic` one step.  Between the two
changes the table is only read, so the page is made from the table at the second one.  Opening and writing the file
always succeeds. -/

namespace Verif.Statistic

/-- domainstatistic.h 7-15 `StatisticType`. -/
inductive Kind where
  | refused | hosts | cache | udp | tcp | blocked
deriving DecidableEq, Repr

/-- domainstatistic.c 10-18 `DomainInfo` (counters are never negative). -/
structure Info where
  count : Nat
  refused : Nat
  hosts : Nat
  cache : Nat
  udp : Nat
  tcp : Nat
  blocked : Nat
deriving DecidableEq, Repr

/-- The `memset` of domainstatistic.c 97 and 288. -/
def Info.zero : Info := ⟨0, 0, 0, 0, 0, 0, 0⟩

/-- domainstatistic.c 290-322 and 328-360: what one event adds. -/
def Info.unit : Kind → Info
  | .refused => ⟨1, 1, 0, 0, 0, 0, 0⟩
  | .hosts => ⟨1, 0, 1, 0, 0, 0, 0⟩
  | .cache => ⟨1, 0, 0, 1, 0, 0, 0⟩
  | .udp => ⟨1, 0, 0, 0, 1, 0, 0⟩
  | .tcp => ⟨1, 0, 0, 0, 0, 1, 0⟩
  | .blocked => ⟨0, 0, 0, 0, 0, 0, 1⟩

def Info.add (a b : Info) : Info :=
  ⟨a.count + b.count, a.refused + b.refused, a.hosts + b.hosts, a.cache + b.cache, a.udp + b.udp, a.tcp + b.tcp, a.blocked + b.blocked⟩

/-- The additions of domainstatistic.c 119-125 and 328-360 on `int`; `none`: overflow. -/
def Info.plus (a b : Info) : Option Info :=
  let c := a.add b
  if c.count < 2147483648 ∧ c.refused < 2147483648 ∧ c.hosts < 2147483648 ∧ c.cache < 2147483648 ∧ c.udp < 2147483648 ∧
    c.tcp < 2147483648 ∧ c.blocked < 2147483648 then some c else none

/-- domainstatistic.c 27 and 36: the table, whose entries hold the counters, and `SkipStatistic`. -/
structure State where
  chunk : StringChunk.Chunk Nat
  infos : List Info
  skip : Bool

/-- domainstatistic.c 246-250. -/
def State.init (hash : List Byte → UInt32) : State := ⟨StringChunk.init hash, [], false⟩

/-- domainstatistic.c 264-368 `DomainStatistic_Add` for a query for the name `d` (whose hash value is in the header).
`none`: overflow. -/
def add (fnm : List Byte → List Byte → Bool) (st : State) (d : List Byte) (t : Kind) : Option State :=
  if st.skip then some st
  else match st.chunk.match_ fnm d (st.chunk.hash d) (fun _ => true) with
    | none =>
      some { st with chunk := st.chunk.add d (some st.infos.length), infos := st.infos ++ [Info.unit t] }
    | some none => some st
    | some (some k) =>
      match st.infos[k]? with
      | none => some st
      | some i => (i.plus (Info.unit t)).map (fun i => { st with infos := st.infos.set k i })

/-- What happens, one after the other. -/
inductive Ev where
  /-- A call of `DomainStatistic_Add`. -/
  | query (d : List Byte) (t : Kind)
  /-- domainstatistic.c 111-113: the page is begun. -/
  | start
  /-- domainstatistic.c 153-155: all rows have been written. -/
  | stop

def step (fnm : List Byte → List Byte → Bool) (st : State) : Ev → Option State
  | .query d t => add fnm st d t
  | .start => some { st with skip := true }
  | .stop => some { st with skip := false }

def run (fnm : List Byte → List Byte → Bool) (st : State) : List Ev → Option State
  | [] => some st
  | e :: es => match step fnm st e with | none => none | some st => run fnm st es

/-- domainstatistic.c 115-151: the rows written, in order of enumeration. -/
def State.rows (st : State) : List (List Byte × Info) :=
  st.chunk.ht.nodes.filterMap (fun nd => match nd.data.data with
    | none => none
    | some k => (st.infos[k]?).map (fun i => (nd.data.str, i)))

/-- domainstatistic.c 97 and 119-125: `Sum`; `none`: overflow. -/
def State.sum (st : State) : Option Info := st.rows.foldlM (fun a r => a.plus r.2) Info.zero

/-- domainstatistic.c 127-147: one row. -/
def rowText (r : List Byte × Info) : List Byte :=
  str "{Domain:\"" ++ r.1 ++ str "\",Total:" ++ IpText.dec r.2.count ++ str ",RaF:" ++ IpText.dec r.2.refused ++ str ",Hosts:" ++
    IpText.dec r.2.hosts ++ str ",Cache:" ++ IpText.dec r.2.cache ++ str ",UDP:" ++ IpText.dec r.2.udp ++ str ",TCP:" ++
    IpText.dec r.2.tcp ++ str ",BlockedMsg:" ++ IpText.dec r.2.blocked ++ str "},"

/-- domainstatistic.c 115-151: all rows. -/
def rowsText (rs : List (List Byte × Info)) : List Byte := (rs.map rowText).flatten

end Verif.Statistic
