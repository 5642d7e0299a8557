import Verif.Model.CBase
/-! Model of `stablebuffer.c`: storage in blocks that never move.  `MetaInfo` is a list of blocks (arrays
are modelled in `Arr`). -/

namespace Verif.StableBuffer

/-- stablebuffer.h 6-10.  `mem` is the memory at `Start`, `Amount` bytes; `none`: never written. -/
structure Block where
  mem : List (Option Byte)
  used : Nat
deriving DecidableEq, Repr

abbrev Buf := List Block

/-- An address in the storage: the number of the block and the offset. -/
abbrev Pos := Nat × Nat

/-- utils.h 11 `ROUND_UP(n, sizeof(void *))`. -/
def roundUp8 (n : Nat) : Nat := (n + 7) / 8 * 8

/-- stablebuffer.c 5-26 `NeedRealloc`. -/
def needRealloc (bs : Buf) (len : Nat) : Bool :=
  match bs.getLast? with
  | none => true
  | some l => (l.mem.length : Int) - l.used < len

/-- stablebuffer.c 28-81 `Realloc`, `WriteHere`: the storage and the place for `len` bytes.  The outer
`none` is an overflow of `int`; the inner one is NULL, if there is no memory (`ok`). -/
def writeHere (ok : Bool) (bs : Buf) (len : Nat) : Option (Buf × Option Pos) :=
  if needRealloc bs len then
    if 2147483647 < len * (bs.length + 1) then none
    else if ok then
      some (bs ++ [⟨List.replicate (roundUp8 (len * (bs.length + 1))) none, len⟩], some (bs.length, 0))
    else some (bs, none)
  else
    match bs.getLast? with
    | none => some (bs, none)
    | some l => some (bs.dropLast ++ [{ l with used := l.used + len }], some (bs.length - 1, l.used))

/-- `memcpy` of `data` to an address; `none`: outside the block. -/
def write (bs : Buf) (p : Pos) (data : List (Option Byte)) : Option Buf :=
  match bs[p.1]? with
  | none => none
  | some b =>
    if p.2 + data.length ≤ b.mem.length then
      some (bs.set p.1 { b with mem := b.mem.take p.2 ++ data ++ b.mem.drop (p.2 + data.length) })
    else none

/-- `n` bytes read from an address; `none`: outside the block. -/
def read (bs : Buf) (p : Pos) (n : Nat) : Option (List (Option Byte)) :=
  match bs[p.1]? with
  | none => none
  | some b => if p.2 + n ≤ b.mem.length then some ((b.mem.drop p.2).take n) else none

/-- stablebuffer.c 83-100 `Add`; without data (`Data == NULL`) nothing is written. -/
def add (ok : Bool) (bs : Buf) (data : Option (List (Option Byte))) (len : Nat) (align : Bool) : Option (Buf × Option Pos) :=
  match writeHere ok bs (if align then roundUp8 len else len) with
  | none => none
  | some (bs', none) => some (bs', none)
  | some (bs', some p) =>
    match data with
    | none => some (bs', some p)
    | some d => (write bs' p d).map fun b => (b, some p)

/-- stablebuffer.c 102-115 `Clear`. -/
def clear (_ : Buf) : Buf := []

/-! ### Users -/

/-- What users do: ask for a place with or without contents, write a byte of a place they own (the
`h`-th one they got), read such a place. -/
inductive Cmd where
  | add (ok : Bool) (data : List Byte) (align : Bool)
  | room (ok : Bool) (len : Nat) (align : Bool)
  | put (h i : Nat) (x : Byte)
  | get (h : Nat)
deriving DecidableEq, Repr

inductive Reply where
  | got (ok : Bool)
  | bytes (l : List (Option Byte))
  | done
deriving DecidableEq, Repr

structure St where
  buf : Buf
  /-- The places handed out, with their lengths. -/
  places : List (Pos × Nat)

def St.init : St := ⟨[], []⟩

/-- `none`: undefined behaviour, or a user who breaks the rules. -/
def step (s : St) : Cmd → Option (St × Reply)
  | .add ok d a =>
    match add ok s.buf (some (d.map some)) d.length a with
    | none => none
    | some (b, none) => some (⟨b, s.places⟩, .got false)
    | some (b, some p) => some (⟨b, s.places ++ [(p, d.length)]⟩, .got true)
  | .room ok n a =>
    match add ok s.buf none n a with
    | none => none
    | some (b, none) => some (⟨b, s.places⟩, .got false)
    | some (b, some p) => some (⟨b, s.places ++ [(p, n)]⟩, .got true)
  | .put h i x =>
    match s.places[h]? with
    | none => none
    | some (p, n) => if i < n then (write s.buf (p.1, p.2 + i) [some x]).map fun b => (⟨b, s.places⟩, .done) else none
  | .get h =>
    match s.places[h]? with
    | none => none
    | some (p, n) => (read s.buf p n).map fun l => (s, .bytes l)

def run : St → List Cmd → Option (St × List Reply)
  | s, [] => some (s, [])
  | s, c :: cs =>
    match step s c with
    | none => none
    | some (s', r) => (run s' cs).map fun q => (q.1, r :: q.2)

end Verif.StableBuffer
