import Verif.Model.Groups
/-! The texts with the names of the servers (and proxies) of a group: a group keeps no copy of them but a pointer.
Where they are, when they are freed, and when they are read. -/

namespace Verif.ServerNames
open Groups (Proto)

/-- Where the text is that `ServiceName` or `ProxyName` points to: in the strings of the option `ServerGroup` (mmgr.c
154-158, 251-257; they stay for ever), or in the arguments read from a group file (mmgr.c 478-512), the files being
numbered. -/
inductive Place where
  | option
  | file (f : Nat)
deriving DecidableEq, Repr

/-- udpm.h 23, tcpm.h 22, 29: the kind of the group and its pointers; `proxy = none`: there are no proxies. -/
structure Group where
  proto : Proto
  name : Place
  proxy : Option Place
deriving DecidableEq, Repr

/-- All groups ever started and the files of which the arguments have been freed. -/
structure St where
  groups : List Group
  freed : List Nat
deriving DecidableEq, Repr

inductive Ev where
  /-- mmgr.c 147-181, 244-281: a group of the option `ServerGroup` is started -/
  | start (p : Proto) (proxied : Bool)
  /-- mmgr.c 475-520: a group of the file `f` is started (`proxied`: the file has a line `proxy`, not `no`) -/
  | startFile (f : Nat) (p : Proto) (proxied : Bool)
  /-- mmgr.c 519-523: the reading of the file `f` ends -/
  | readEnd (f : Nat)
  /-- udpm.c 174-187: `recvfrom` of the worker of the UDP group `i` returns `n` -/
  | recv (i : Nat) (n : Int)
  /-- tcpm.c 148-190: the TCP group `i` connects to servers, or to proxies -/
  | connect (i : Nat) (proxy : Bool)
deriving DecidableEq, Repr

/-- udpm.c 404, tcpm.c 889-890: the pointers of a group whose texts are at `w`. -/
def make (p : Proto) (w : Place) (proxied : Bool) : Group :=
  ⟨p, w, if p = .tcp ∧ proxied then some w else none⟩

/-- A text is read: `none` if it has been freed. -/
def read (st : St) : Place → Option St
  | .option => some st
  | .file f => if f ∈ st.freed then none else some st

/-- tcpm.c 158-176: the text with the names of those connected to. -/
def which (w : Place) (x : Option Place) (proxy : Bool) : Place :=
  match x, proxy with
  | some y, true => y
  | _, _ => w

/-- One event; `debug`: the program was started with `-D` (logs.h 22).  `none`: freed memory is read. -/
def step (debug : Bool) (st : St) : Ev → Option St
  | .start p x => some { st with groups := st.groups ++ [make p .option x] }
  | .startFile f p x => some { st with groups := st.groups ++ [make p (.file f) x] }
  | .readEnd f => some { st with freed := f :: st.freed }
  | .recv i n =>
    match st.groups[i]? with
    | some ⟨.udp, w, _⟩ => if n ≤ 0 then read st w else some st
    | _ => some st
  | .connect i proxy =>
    match st.groups[i]? with
    | some ⟨.tcp, w, x⟩ =>
      if debug then read st (which w x proxy) else some st
    | _ => some st

/-- Any history. -/
def run (debug : Bool) : St → List Ev → Option St
  | st, [] => some st
  | st, e :: es =>
    match step debug st e with
    | none => none
    | some st' => run debug st' es

/-- The program at its start. -/
def begin : St := ⟨[], []⟩

end Verif.ServerNames
