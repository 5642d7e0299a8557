import Verif.Model.LinkedQueue
/-! Model of `timedtask.c` (POSIX variant, and the main loop of the Windows variant).

`select` is the environment: it ends because of the timeout, because the pipe is readable, or with an
error.  As on Linux it writes the time left into its last argument.  The tasks' functions are not
modelled beyond the time they take. -/

namespace Verif.TimedTask
open LinkedQueue

/-- `struct timeval`. -/
structure Tv where
  sec : Int
  usec : Int
deriving DecidableEq, Repr

/-- timedtask.c 37-45 `Tv_Comapre`.  Simplification: no truncation of `long` to `int` (the times come
from an `int` number of milliseconds). -/
def tvCompare (a b : Tv) : Int := if a.sec = b.sec then a.usec - b.usec else a.sec - b.sec

/-- timedtask.c 47-67 `Tv_Subtract`. -/
def tvSubtract (a b : Tv) : Tv :=
  if tvCompare a b ≤ 0 then ⟨0, 0⟩
  else if a.usec ≥ b.usec then ⟨a.sec - b.sec, a.usec - b.usec⟩
  else ⟨a.sec - (1 + b.sec), 1000000 - b.usec + a.usec⟩

/-- timedtask.c 10-26 `TaskInfo`; `id` stands for the function and its arguments. -/
structure Task where
  id : Nat
  timeOut : Tv
  left : Tv
  persistent : Bool
  async : Bool
deriving DecidableEq, Repr

/-- timedtask.c 384-392 `Compare`. -/
def compare (a b : Task) : Int := tvCompare a.left b.left

/-- timedtask.c 93-114 `TimeTask_ReduceTime`. -/
def reduceTime (tv : Tv) (q : List Task) : List Task :=
  update (fun t => { t with left := tvSubtract t.left tv }) q

/-- timedtask.c 330-367 `TimedTask_Add`: the task written to the pipe.  C's `/` and `%` truncate
towards zero. -/
def newTask (id : Nat) (persistent async : Bool) (ms : Int) (immediate : Bool) : Task :=
  let out : Tv := ⟨ms.tdiv 1000, ms.tmod 1000 * 1000⟩
  ⟨id, out, if immediate then ⟨0, 0⟩ else out, persistent, async⟩

/-- What the threads share: the clock (in microseconds), when the loop called `select`, the queue, the
pipe, and the asynchronous tasks that are running.  `dead`: the endless loop of line 267. -/
structure St where
  now : Nat
  start : Nat
  queue : List Task
  pipe : List Task
  running : List Task
  dead : Bool
deriving DecidableEq, Repr

def St.init : St := ⟨0, 0, [], [], [], false⟩

/-- What can happen. -/
inductive Act where
  /-- Time passes. -/
  | tick (d : Nat)
  /-- Some thread calls `TimedTask_Add`. -/
  | post (id : Nat) (persistent async : Bool) (ms : Int) (immediate : Bool)
  /-- `select` returns 0; a synchronous task takes `d`. -/
  | timeout (d : Nat)
  /-- `select` returns because the pipe is readable, with `rem` left. -/
  | ready (rem : Tv)
  /-- `select` rejects its timeout. -/
  | reject
  /-- The first of the running asynchronous tasks with this number returns. -/
  | finish (id : Nat)
deriving DecidableEq, Repr

/-- What others see: a task has been asked for, starts, or is scheduled again, with the time. -/
inductive Event where
  | asked (at_ : Nat) (id : Nat) (persistent : Bool) (ms : Int) (immediate : Bool)
  | starts (at_ : Nat) (id : Nat)
  | again (at_ : Nat) (id : Nat)
deriving DecidableEq, Repr

/-- A timeout `select` accepts. -/
def Tv.ok (t : Tv) : Bool := 0 ≤ t.sec ∧ 0 ≤ t.usec ∧ t.usec < 1000000

/-- In microseconds. -/
def Tv.us (t : Tv) : Int := t.sec * 1000000 + t.usec

/-- timedtask.c 130-156 `TimeTask_RunTack` behind the call of the function: a persistent task is put
into the pipe (asynchronous) or the queue again. -/
def rearm (s : St) (t : Task) : St × List Event :=
  if t.persistent then
    let t' : Task := { t with left := t.timeOut }
    (if t.async then { s with pipe := s.pipe ++ [t'] } else { s with queue := add compare t' s.queue },
     [.again s.now t.id])
  else (s, [])

/-- timedtask.c 241-326 `TimeTask_Work` together with the environment.  `none`: this cannot happen
(`select` does not end before its time has passed, it does not count more time than has passed, it
accepts exactly valid timeouts, the pipe is readable only if something is in it). -/
def step (s : St) : Act → Option (St × List Event)
  | .tick d => some ({ s with now := s.now + d }, [])
  | .post id p a ms im =>
    let t := newTask id p a ms im
    some ({ s with pipe := s.pipe ++ [t] }, [.asked s.now id p ms im])
  | .finish id =>
    match s.running.find? (fun t => t.id == id) with
    | none => none
    | some t =>
      let r := rearm { s with running := s.running.erase t } t
      some r
  | .reject =>
    if s.dead then none
    else
      match get s.queue with
      | (some i, _) => if i.left.ok then none else some ({ s with dead := true }, [])
      | (none, _) => none
  | .timeout d =>
    if s.dead then none
    else
      match get s.queue with
      | (none, _) => none
      | (some i, q) =>
        if i.left.ok ∧ s.start + i.left.us ≤ s.now then
          let elapsed := tvSubtract i.left ⟨0, 0⟩
          let q' := reduceTime elapsed q
          if i.async then
            some ({ s with queue := q', running := i :: s.running, start := s.now }, [.starts s.now i.id])
          else
            let s1 : St := { s with queue := q', now := s.now + d }
            let r := rearm s1 i
            some ({ r.1 with start := r.1.now }, .starts s.now i.id :: r.2)
        else none
  | .ready rem =>
    if s.dead then none
    else
      match s.pipe with
      | [] => none
      | n :: pipe =>
        match get s.queue with
        | (none, q) => some ({ s with queue := add compare n q, pipe := pipe, start := s.now }, [])
        | (some i, q) =>
          if i.left.ok ∧ rem.ok ∧ rem.us ≤ i.left.us ∧ s.start + i.left.us ≤ s.now + rem.us then
            let elapsed := tvSubtract i.left rem
            let q1 := add compare n (reduceTime elapsed q)
            some ({ s with queue := add compare { i with left := rem } q1, pipe := pipe, start := s.now }, [])
          else none

/-- A run and everything seen. -/
def run : St → List Act → Option (St × List Event)
  | s, [] => some (s, [])
  | s, a :: as =>
    match step s a with
    | none => none
    | some (s', e) => (run s' as).map fun r => (r.1, e ++ r.2)

end Verif.TimedTask
