/-! Model of `array.c`, arrays that grow up (no caller uses the other kind).  The memory of an array is
a list of rooms; `none` in a room means that no element has been stored in it.  Simplification: sizes
stay within the range of `int`. -/

namespace Verif.Arr

structure Arr (α : Type) where
  /-- `Data`; its length is `Allocated`. -/
  rooms : List (Option α)
  /-- `Used`. -/
  used : Nat
deriving DecidableEq, Repr

variable {α : Type}

/-- array.c 7-35 `Array_Init`. -/
def init (n : Nat) : Arr α := ⟨List.replicate n none, 0⟩

/-- array.c 38-51 `Array_GetBySubscript`: the room pointed to, `none` for NULL. -/
def getBySubscript (a : Arr α) (i : Int) : Option Nat := if 0 ≤ i ∧ i < a.used then some i.toNat else none

/-- What is read through such a pointer; `none`: it points outside the memory of the array. -/
def read (a : Arr α) (i : Nat) : Option (Option α) := a.rooms[i]?

/-- A write to a room; `none`: outside the memory of the array. -/
def write (a : Arr α) (i : Nat) (x : α) : Option (Arr α) :=
  if i < a.rooms.length then some { a with rooms := a.rooms.set i (some x) } else none

/-- `SafeRealloc` to `n` rooms, if there is memory (`ok`). -/
def realloc (ok : Bool) (a : Arr α) (n : Nat) : Option (Arr α) :=
  if ok then some { a with rooms := (a.rooms ++ List.replicate (n - a.rooms.length) none).take n } else none

/-- array.c 89-122 `Array_PushBack`.  The outer `none` is an access outside the array; otherwise the
array and the subscript returned (`none` for -1). -/
def pushBack (ok : Bool) (x : Option α) (a : Arr α) : Option (Arr α × Option Nat) :=
  let grown :=
    if a.used = a.rooms.length then
      realloc ok a (if a.rooms.length < 2 then 2 else a.rooms.length + a.rooms.length / 2)
    else some a
  match grown with
  | none => some (a, none)
  | some a1 =>
    match x with
    | none => some ({ a1 with used := a1.used + 1 }, some a1.used)
    | some v => (write a1 a1.used v).map fun a2 => ({ a2 with used := a2.used + 1 }, some a2.used)

/-- array.c 124-152 `Array_SetToSubscript`; the room, `none` for NULL. -/
def setToSubscript (ok : Bool) (i : Nat) (x : α) (a : Arr α) : Option (Arr α × Option Nat) :=
  let grown := if i ≥ a.rooms.length then realloc ok a (i + 1) else some a
  match grown with
  | none => some (a, none)
  | some a1 =>
    (write a1 i x).map fun a2 => (if a2.used < i + 1 then { a2 with used := i + 1 } else a2, some i)

/-- array.h 129 `Array_Clear`. -/
def clear (a : Arr α) : Arr α := { a with used := 0 }

/-- What a caller can do. -/
inductive Cmd (α : Type) where
  | push (ok : Bool) (x : α)
  | set (ok : Bool) (i : Nat) (x : α)
  | get (i : Int)
  | clear
deriving DecidableEq, Repr

/-- What a caller sees: a subscript (`none` for failure), or the element read. -/
inductive Reply (α : Type) where
  | sub (i : Option Nat)
  | elem (x : Option (Option α))
  | done
deriving DecidableEq, Repr

def step (a : Arr α) : Cmd α → Option (Arr α × Reply α)
  | .push ok x => (pushBack ok (some x) a).map fun r => (r.1, .sub r.2)
  | .set ok i x => (setToSubscript ok i x a).map fun r => (r.1, .sub r.2)
  | .get i =>
    match getBySubscript a i with
    | none => some (a, .elem none)
    | some j => (read a j).map fun v => (a, .elem (some v))
  | .clear => some (clear a, .done)

def run : Arr α → List (Cmd α) → Option (Arr α × List (Reply α))
  | a, [] => some (a, [])
  | a, c :: cs =>
    match step a c with
    | none => none
    | some (a', r) => (run a' cs).map fun q => (q.1, r :: q.2)

end Verif.Arr
