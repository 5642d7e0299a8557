import Verif.Model.CBase
/-! Model of the cache index (cacheht.c): a node table growing down from the end of the cache area,
slot chains through `Next`, and the two-dimensional list of free nodes overlaid on unused nodes.

Node numbers are indices into the table; the table's memory at and beyond `used` keeps its old
contents, as in the code.  Following a number outside the table dereferences NULL in the code; that
and a loop not ending within the given number of rounds are the outcome `none`. -/

namespace Verif.CacheHT

/-- cacheht.h 7-15 `Cht_Node`.  A free node is read as `Cht_2DList` (17-25): `slot` is `KeyNext`,
`next` is `ValNext` and `used` is `Count`; the other fields coincide. -/
structure Node where
  slot : Int
  next : Int
  offset : Nat
  ttl : Nat
  added : Int
  length : Nat
  used : Nat
deriving DecidableEq, Repr

/-- cacheht.h 27-31 `CacheHT`: the node table, the slots, the head of the free list. -/
structure HT where
  nodes : Nat → Node
  used : Nat
  slots : Nat → Int
  free : Int

/-- A write to node `i`. -/
def HT.set (h : HT) (i : Nat) (n : Node) : HT := { h with nodes := fun j => if j = i then n else h.nodes j }

/-- A write to slot `s`. -/
def HT.setSlot (h : HT) (s : Nat) (v : Int) : HT := { h with slots := fun t => if t = s then v else h.slots t }

/-- cacheht.c 30-51 `CacheHT_Init`: all slots empty, no node. -/
def HT.init (h : HT) : HT := { h with used := 0, slots := fun _ => -1, free := -1 }

/-- The address of node `i`, as offset in the cache area of `size` bytes with `nslots` slots at its
end (cacheht.c 33-46; a slot has 4 bytes, a node 32). -/
def nodeAddr (size nslots i : Nat) : Int := (size : Int) - 4 * nslots - 32 * (i + 1)

/-- cacheht.c 61-86 `CacheHT_CreateNewNode` with array.c 110-121 (`Array_PushBack` of an array that
grows down): refused if the node would begin below `boundary`. -/
def create (size nslots : Nat) (h : HT) (chunk : Nat) (boundary : Int) : HT × Option Nat :=
  if nodeAddr size nslots h.used < boundary then (h, none)
  else
    ({ (h.set h.used { h.nodes h.used with next := -1, length := chunk, used := 0 }) with used := h.used + 1 },
      some h.used)

/-- cacheht.c 118-126: aging of the use count of the previous group. -/
def age (now : Int) (h : HT) (pre : Option Nat) (c : Nat) : HT :=
  match pre with
  | none => h
  | some p =>
    if (h.nodes p).used > (h.nodes c).used ∧ (h.nodes p).added - (h.nodes c).added ≥ 59 then
      h.set p { h.nodes p with used := (h.nodes c).used, added := now }
    else h

/-- `h->Free2DList = v` or `PreHead->KeyNext = v`. -/
def link (h : HT) (pre : Option Nat) (v : Int) : HT :=
  match pre with
  | none => { h with free := v }
  | some p => h.set p { h.nodes p with slot := v }

/-- cacheht.c 133-177: unlinking the group head `c` (`grand`, `pre`: the two groups before it). -/
def unlink (now : Int) (h : HT) (grand pre : Option Nat) (c : Nat) : Option HT :=
  let h := h.set c { h.nodes c with added := now, used := (h.nodes c).used + 1 }
  let n := h.nodes c
  if n.next ≥ 0 then
    if n.next.toNat < h.used then
      let e := n.next.toNat
      let h := h.set e { h.nodes e with slot := n.slot, added := n.added, used := n.used }
      match pre with
      | none => some (link h none e)
      | some p =>
        if ((h.nodes e).used : Int) - (h.nodes p).used < 5 then some (link h (some p) e)
        else
          let h := h.set p { h.nodes p with slot := (h.nodes e).slot }
          let h := h.set e { h.nodes e with slot := p }
          some (link h grand e)
    else none
  else some (link h pre n.slot)

/-- cacheht.c 112-202: the search for a group of chunks of exactly `chunk` bytes. -/
def findLoop (now : Int) (chunk : Nat) : Nat → HT → Option Nat → Option Nat → Int → Option (HT × Option Nat)
  | 0, _, _, _, _ => none
  | fuel + 1, h, grand, pre, cur =>
    if cur < 0 then some (h, none)
    else if cur.toNat < h.used then
      let c := cur.toNat
      let h := age now h pre c
      if (h.nodes c).length = chunk then
        match unlink now h grand pre c with
        | none => none
        | some h => some (h.set c { h.nodes c with used := 0, next := -1 }, some c)
      else findLoop now chunk fuel h pre (some c) (h.nodes c).slot
    else none

/-- cacheht.c 88-208 `CacheHT_FindUnusedNode`: the node and whether it was newly created. -/
def findUnused (size nslots : Nat) (now : Int) (h : HT) (chunk : Nat) (boundary : Int) (fuel : Nat) :
    Option (HT × Option (Nat × Bool)) :=
  match findLoop now chunk fuel h none none h.free with
  | none => none
  | some (h, some c) => some (h, some (c, false))
  | some (h, none) =>
    match create size nslots h chunk boundary with
    | (h, some c) => some (h, some (c, true))
    | (h, none) => some (h, none)

/-- cacheht.c 210-243 `CacheHT_InsertToSlot` for slot `s`. -/
def insert (h : HT) (s i : Nat) : HT :=
  (h.set i { h.nodes i with slot := s, next := h.slots s }).setSlot s i

/-- cacheht.c 245-269 `CacheHT_FindPredecessor`: the loop. -/
def predLoop (h : HT) (target : Nat) : Nat → Int → Option (Option Nat)
  | 0, _ => none
  | fuel + 1, next =>
    if next < 0 then some none
    else if next.toNat < h.used then
      if (h.nodes next.toNat).next = target then some (some next.toNat)
      else predLoop h target fuel (h.nodes next.toNat).next
    else none

/-- cacheht.c 245-269 `CacheHT_FindPredecessor`. -/
def pred (h : HT) (first : Int) (target : Nat) (fuel : Nat) : Option (Option Nat) :=
  if first = target then some none else predLoop h target fuel first

/-- cacheht.c 285-300: the search for the group of the freed node's length.  Returns the group before
it and its head. -/
def groupLoop (h : HT) (len : Nat) : Nat → Option Nat → Int → Option (Option Nat × Int)
  | 0, _, _ => none
  | fuel + 1, pre, cur =>
    if cur < 0 then some (pre, cur)
    else if cur.toNat < h.used then
      if (h.nodes cur.toNat).length = len then some (pre, cur)
      else groupLoop h len fuel (some cur.toNat) (h.nodes cur.toNat).slot
    else none

/-- cacheht.c 274-354 `CacheHT_AddTo2DList`. -/
def addFree (h : HT) (i : Nat) (fuel : Nat) : Option HT :=
  match groupLoop h (h.nodes i).length fuel none h.free with
  | none => none
  | some (pre, cur) =>
    if cur < 0 then
      some { (h.set i { h.nodes i with slot := h.free, used := 0, next := cur }) with free := i }
    else
      let c := cur.toNat
      let h := h.set i { h.nodes i with slot := (h.nodes c).slot, used := (h.nodes c).used, next := cur }
      some (link h pre i)

/-- cacheht.c 356-395 `CacheHT_RemoveFromSlot`. -/
def remove (nslots : Nat) (h : HT) (i : Nat) (fuel : Nat) : Option HT :=
  let n := h.nodes i
  if n.slot < 0 then some h
  else if n.slot.toNat < nslots then
    match pred h (h.slots n.slot.toNat) i fuel with
    | none => none
    | some p =>
      let h :=
        match p with
        | none => h.setSlot n.slot.toNat n.next
        | some q => h.set q { h.nodes q with next := n.next }
      if i + 1 ≠ h.used then addFree h i fuel else some { h with used := h.used - 1 }
  else some h

end Verif.CacheHT
