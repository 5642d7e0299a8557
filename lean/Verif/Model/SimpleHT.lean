import Verif.Model.CBase
/-! Model of `simpleht.c`: the growing hash table with chains of node subscripts. -/

namespace Verif.SimpleHT

/-- simpleht.h 6-9 `Sht_NodeHead` with the payload behind it.  `next = none` is `Next == -1`. -/
structure Node (δ : Type) where
  next : Option Nat
  hash : UInt32
  data : δ
deriving DecidableEq, Repr

/-- simpleht.h 11-20 `SimpleHT`.  `slots[i] = none` is `Next == -1`.  The arrays are lists; growing
them (array.c) is not a failure point here (memory exhaustion is not modelled). -/
structure HT (δ : Type) where
  slots : List (Option Nat)
  nodes : List (Node δ)
  maxLoad : Nat
  left : Nat

variable {δ : Type}

/-- simpleht.c 10-35 `SimpleHT_Init`. -/
def init (maxLoad : Nat) : HT δ :=
  { slots := List.replicate 7 none, nodes := [], maxLoad := maxLoad, left := 7 * maxLoad }

/-- simpleht.c 42/140: the slot subscript of a hash value. -/
def HT.slotOf (t : HT δ) (h : UInt32) : Nat := h.toNat % t.slots.length

/-- simpleht.c 37-52 `SimpleHT_AddToSlot`: push the node to the front of its slot's chain.  A missing
slot or node leaves the table unchanged (the C code returns -1; it cannot happen). -/
def HT.addToSlot (t : HT δ) (i : Nat) : HT δ :=
  match t.nodes[i]? with
  | none => t
  | some nd =>
    match t.slots[t.slotOf nd.hash]? with
    | none => t
    | some head =>
      { t with
        nodes := t.nodes.set i { nd with next := head }
        slots := t.slots.set (t.slotOf nd.hash) (some i) }

/-- simpleht.c 71-75: `for( loop = 0; loop < n; ++loop ) AddToSlot(ht, node loop, loop)`. -/
def HT.addAll (t : HT δ) : Nat → HT δ
  | 0 => t
  | n + 1 => (t.addAll n).addToSlot n

/-- simpleht.c 54-78 `SimpleHT_Expand`: twice as many slots, all emptied, every node chained again. -/
def HT.expand (t : HT δ) : HT δ :=
  let t' : HT δ := { t with slots := List.replicate (t.slots.length + t.slots.length) none }
  t'.addAll t.nodes.length

/-- simpleht.c 80-119 `SimpleHT_Add` with the hash value already computed (105-110).  The new node's
`Next` is uninitialised in the code until `AddToSlot`; `none` stands for it. -/
def HT.add (t : HT δ) (h : UInt32) (d : δ) : HT δ :=
  let t1 : HT δ := if t.left = 0 then
      { t.expand with left := t.slots.length * t.maxLoad }
    else t
  let t2 : HT δ := { t1 with nodes := t1.nodes ++ [{ next := none, hash := h, data := d }] }
  let t3 := t2.addToSlot t1.nodes.length
  { t3 with left := t3.left - 1 }

/-- simpleht.c 121-161 `SimpleHT_Find` with `Start == NULL`: the first node of the slot of `h`. -/
def HT.findFirst (t : HT δ) (h : UInt32) : Option Nat :=
  match t.slots[t.slotOf h]? with
  | none => none
  | some none => none
  | some (some i) => if i < t.nodes.length then some i else none

/-- simpleht.c 131-133, 154-159 `SimpleHT_Find` with `Start` = node `i`: its successor. -/
def HT.findNext (t : HT δ) (i : Nat) : Option Nat :=
  match t.nodes[i]? with
  | none => none
  | some nd =>
    match nd.next with
    | none => none
    | some j => if j < t.nodes.length then some j else none

/-- The loop of every caller: `while( (e = Find(.., e)) != NULL ) if( ok(e) ) return e;`.
The result is `none` when `fuel` iterations were not enough, `some none` when the chain ended. -/
def HT.scan (t : HT δ) (ok : δ → Bool) : Nat → Option Nat → Option (Option δ)
  | _, none => some none
  | 0, some _ => none
  | fuel + 1, some i =>
    match t.nodes[i]? with
    | none => some none
    | some nd => if ok nd.data then some (some nd.data) else t.scan ok fuel (t.findNext i)

/-- simpleht.c 163-177 `SimpleHT_Enum`: the node with subscript `*Start` and the advanced `*Start`. -/
def HT.enum (t : HT δ) (start : Nat) : Option δ × Nat :=
  match t.nodes[start]? with
  | some nd => (some nd.data, start + 1)
  | none => (none, start)

end Verif.SimpleHT
