import Verif.Model.CBase
/-! Descriptors of the process, and the pipe through which the timer gets its tasks (main.c 236-330, 510-585, timedtask.c 112-153, 293-317, 330-380,
dynamichosts.c 143-150).  POSIX: a new descriptor is the lowest one that is free, a child has the descriptors of its parent. -/

namespace Verif.Descriptors

/-- What a descriptor stands for: what it was when the program was started, a file or socket of the program, or an end of the pipe. -/
inductive Kind where
  | std
  | own
  | pipeRead
  | pipeWrite
deriving DecidableEq, Repr

/-- What the descriptors 0, 1, … stand for; `none`: closed. -/
abbrev Table := List (Option Kind)

/-- A new descriptor for `k`: the lowest one that is free. -/
def place (k : Kind) : Table → Table
  | [] => [some k]
  | none :: t => some k :: t
  | some x :: t => some x :: place k t

/-- main.c 310-329 `DaemonInit` in the child: the first three are closed. -/
def daemonInit (t : Table) : Table := ((t.set 0 none).set 1 none).set 2 none

/-- main.c 510-549: the order is `DaemonInit` (with `-d`, if `fork` works), `EnvironmentInit` (the configuration file is opened and closed again),
`Log_Init` (the log file stays open if there is one), `TimedTask_Init` (the pipe). -/
def startUp (daemon forked log : Bool) (t : Table) : Table :=
  let t1 := if daemon && forked then daemonInit t else t
  let t2 := if log then place .own t1 else t1
  place .pipeWrite (place .pipeRead t2)

/-- What the script does with its standard descriptors. -/
inductive Use where
  | writes (fd : Nat) (s : List Byte)
  | reads (n : Nat)
deriving DecidableEq, Repr

/-- What happens: the program opens or closes a file or socket of its own, adds a task, the timer takes one, the script for hosts is run. -/
inductive Ev where
  | opens
  | closes (n : Nat)
  | adds (task : List Byte)
  | takes
  | script (uses : List Use)
deriving DecidableEq, Repr

/-- The descriptors, the bytes in the pipe, and the variable `ni` (timedtask.c 293), which is static. -/
structure St where
  tab : Table
  pipe : List Byte
  ni : List Byte
deriving DecidableEq, Repr

/-- timedtask.c 10-26: `sizeof(TaskInfo)` (LP64: three pointers, two `struct timeval`, two `BOOL`). -/
def size : Nat := 64

/-- dynamichosts.c 147, utils.c 16-31 `Execute`: the script has the descriptors of the program. -/
def use (st : St) : Use → St
  | .writes fd s => if st.tab[fd]? = some (some .pipeWrite) then { st with pipe := st.pipe ++ s } else st
  | .reads n => if st.tab[0]? = some (some .pipeRead) then { st with pipe := st.pipe.drop n } else st

/-- The state afterwards, and the task that is taken.  `none`: this cannot happen (a task has `size` bytes, `select` waits for something to read).
timedtask.c 295-305: what `read` gives, at most `size` bytes, is put over `ni`; that there may be fewer is not checked.  Simplified: the pipe has room. -/
def step (st : St) : Ev → Option (St × List (List Byte))
  | .opens => some ({ st with tab := place .own st.tab }, [])
  | .closes n => if st.tab[n]? = some (some .own) then some ({ st with tab := st.tab.set n none }, []) else none
  | .adds t => if t.length = size then some ({ st with pipe := st.pipe ++ t }, []) else none
  | .takes =>
    if st.pipe = [] then none
    else
      let got := st.pipe.take size
      let ni := got ++ st.ni.drop got.length
      some ({ st with pipe := st.pipe.drop size, ni := ni }, [ni])
  | .script us => some (us.foldl use st, [])

def run (st : St) : List Ev → Option (St × List (List Byte))
  | [] => some (st, [])
  | e :: es =>
    match step st e with
    | none => none
    | some (st, a) => (run st es).map fun (st, b) => (st, a ++ b)

end Verif.Descriptors
