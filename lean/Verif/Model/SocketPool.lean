import Verif.Model.Bst
import Verif.Model.CBase
/-! Model of `socketpool.c` and `socketpuller.c`: a set of sockets, each with some data, one of which is selected when
it is ready.  Sockets are descriptor numbers. -/

namespace Verif.SocketPool

variable {D : Type}

/-- socketpool.h 13-17: the tree of units; a unit is the socket and its data (`none`: no data were given and the
bytes are zero, or, in a key, there is nothing behind the socket). -/
abbrev Pool (D : Type) := Bst.State (Nat × Option D)

/-- socketpool.c 124-127 `Compare`.  (Descriptors are not negative, so the difference fits.) -/
def compare (x y : Nat × Option D) : Int := (x.1 : Int) - y.1

/-- socketpool.c 5-32 `SocketPool_Add` (for the bytes see `unitBytes`). -/
def add (p : Pool D) (s : Nat) (d : Option D) : Pool D := (p.add compare (s, d)).2

/-- socketpool.c 34-45 `SocketPool_Del`: one unit with this socket is taken away, if there is one. -/
def del (p : Pool D) (s : Nat) : Pool D :=
  match p.search compare (s, none) with
  | none => p
  | some (a, _) => p.delete a

/-- socketpool.c 54-88 `SocketPool_FetchOnSet`: the first unit in the order of `Bst_Enum` whose socket is in the
set; the address of its data, the socket, and the data. -/
def fetch (p : Pool D) (set : Nat → Bool) : Option (Nat × Nat × Option D) := p.root.preorder.find? (fun e => set e.2.1)

/-- socketpool.c 90-111 `SocketPool_CloseAll`: the sockets closed. -/
def closeAll (p : Pool D) (except : Option Nat) : List Nat :=
  (p.root.preorder.map (fun e => e.2.1)).filter (fun s => some s ≠ except)

/-- socketpool.c 11-24: the bytes of the unit with room for `cap` bytes of data, of which `unit` is what was there
before (socket included), after the data `d` have been put into it.  `s + 1 + DataLength` counts in sockets (of
four bytes), not in bytes.  `inr`: the function returns -120; `none`: bytes behind the unit are written. -/
def unitBytes (cap : Nat) (unit sock d : List Byte) : Option (List Byte ⊕ Unit) :=
  if cap < d.length then some (.inr ())
  else
    let u := sock ++ d ++ unit.drop (4 + d.length)
    let start := 4 + 4 * d.length
    let n := cap - d.length
    if 0 < n ∧ 4 + cap < start + n then none
    else some (.inl (u.take start ++ List.replicate n 0 ++ u.drop (start + n)))

/-- `FD_SETSIZE`. -/
def setSize : Nat := 1024

/-- socketpuller.h 12-15: the units, the set `s` and the largest socket so far (`none`: -1). -/
structure Puller (D : Type) where
  pool : Pool D
  set : List Nat
  max : Option Nat

/-- socketpuller.c 108-121 `SocketPuller_Init`. -/
def Puller.init : Puller D := ⟨Bst.State.init, [], none⟩

/-- socketpuller.c 3-27 `SocketPuller_Add`; `none`: `FD_SET` of a socket that has no place in the set. -/
def Puller.add (p : Puller D) (s : Nat) (d : Option D) : Option (Puller D) :=
  if setSize ≤ s then none
  else some ⟨SocketPool.add p.pool s d, s :: p.set, match p.max with | none => some s | some m => some (if m < s then s else m)⟩

/-- socketpuller.c 29-39 `SocketPuller_Del`. -/
def Puller.del (p : Puller D) (s : Nat) : Puller D := ⟨SocketPool.del p.pool s, p.set.filter (· ≠ s), p.max⟩

/-- socketpuller.c 41-91 `SocketPuller_Select`: `select` watches the sockets of the set up to the largest;
`ready` are those that are (or become in time) ready.  `none`: `INVALID_SOCKET`. -/
def Puller.select (p : Puller D) (ready : Nat → Bool) : Option (Nat × Nat × Option D) :=
  SocketPool.fetch p.pool (fun s => p.set.contains s && ready s && (match p.max with | none => false | some m => s ≤ m))

end Verif.SocketPool
