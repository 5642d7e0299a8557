import Verif.Model.CacheHT
/-! Model of the response cache (dnscache.c): storing an item, finding items, the expiry sweep.

An item is `key NUL data` behind a start byte, where the key is the text `name type class`; building
items from records and records from items is modelled in `Verif.Model.DnsCache`.  Times are integers
(`time_t`), lifetimes are `uint32_t`. -/

namespace Verif.Cache
open Verif.CacheHT

/-- The fixed parameters: `CacheSize`, the number of slots, `sizeof(struct _Header)`, and the
configuration `IgnoreTTL`, `CacheParallel`. -/
structure Cfg where
  size : Nat
  nslots : Nat
  hdr : Nat
  ignoreTTL : Bool
  parallel : Bool

/-- The state: the index, `*CacheEnd` and the bytes of the area. -/
structure St where
  ht : HT
  cend : Nat
  mem : Nat → Byte

/-- A `memcpy`/`memset` of `bs` to offset `off`. -/
def poke (mem : Nat → Byte) (off : Nat) (bs : List Byte) : Nat → Byte :=
  fun i => if off ≤ i ∧ i < off + bs.length then bs.getD (i - off) 0 else mem i

/-- `memcmp(item, MapStart + off, item.length) == 0`. -/
def same (mem : Nat → Byte) (off : Nat) : List Byte → Bool
  | [] => true
  | c :: r => mem off == c && same mem (off + 1) r

/-- `HASH(Item, 0) % Slots.Allocated`; the key is the C string at the start of the item. -/
def slotOf (cfg : Cfg) (key : List Byte) : Nat := (bkdrHash key).toNat % cfg.nslots

/-- dnscache.c 145-168 `CreateNewCache`. -/
def St.init (cfg : Cfg) (st : St) : St := { st with ht := st.ht.init, cend := cfg.hdr }

/-- dnscache.c 417: the node may be used at this time. -/
def fresh (cfg : Cfg) (now : Int) (n : Node) : Bool := cfg.ignoreTTL || decide (now - n.added < n.ttl)

/-- dnscache.c 410-431 `DNSCache_FindFromCache`: the next node from number `i` on whose bytes start
with `item`.  (`CacheHT_Get`, cacheht.c 397-433, yields NULL for a number outside the table.) -/
def find (cfg : Cfg) (st : St) (item : List Byte) (now : Int) : Nat → Int → Option (Option Nat)
  | 0, _ => none
  | fuel + 1, i =>
    if 0 ≤ i ∧ i.toNat < st.ht.used then
      if fresh cfg now (st.ht.nodes i.toNat) ∧ same st.mem ((st.ht.nodes i.toNat).offset + 1) item then
        some (some i.toNat)
      else find cfg st item now fuel (st.ht.nodes i.toNat).next
    else some none

/-- All the nodes that a loop of `DNSCache_FindFromCache` calls visits, each call starting behind the
node found by the one before. -/
def findAll (cfg : Cfg) (st : St) (item : List Byte) (now : Int) (fuel : Nat) : Nat → Int → Option (List Nat)
  | 0, _ => none
  | n + 1, i =>
    match find cfg st item now fuel i with
    | none => none
    | some none => some []
    | some (some j) => (findAll cfg st item now fuel n (st.ht.nodes j).next).map (j :: ·)

/-- Enough rounds for every loop over the index. -/
def St.fuel (st : St) : Nat := st.ht.used + 2

/-- dnscache.c 30 `CACHE_ROUND_UP`. -/
def roundUp (n : Nat) : Nat := (n + 15) / 16 * 16

/-- dnscache.c 383-408 `DNSCache_GetAvailableChunk`.  Simplified: `CacheHT_FindUnusedNode` reads the clock itself; here it
uses the time of the operation, which only matters for how long free groups of nodes are kept. -/
def getChunk (cfg : Cfg) (st : St) (now : Int) (len : Nat) : Option (St × Option Nat) :=
  let r := roundUp len
  match findUnused cfg.size cfg.nslots now st.ht r ((st.cend + r : Nat) : Int) st.fuel with
  | none => none
  | some (ht, none) => some ({ st with ht := ht }, none)
  | some (ht, some (i, new)) =>
    let st : St :=
      if new then ⟨ht.set i { ht.nodes i with offset := st.cend }, st.cend + r, st.mem⟩
      else { st with ht := ht }
    some ({ st with mem := poke st.mem ((st.ht.nodes i).offset + len) (List.replicate (r - len) 0xFE) }, some i)

/-- The remaining lifetime as the code computes it, in `uint32_t`. -/
def remaining (now : Int) (n : Node) : Nat := (((n.ttl : Int) - (now - n.added)) % 4294967296).toNat

/-- dnscache.c 438-446: the least remaining lifetime of the nodes found. -/
def minRemaining (st : St) (is : List Nat) (ttl : Nat) (now : Int) : Nat :=
  is.foldl (fun m i => if m > remaining now (st.ht.nodes i) then remaining now (st.ht.nodes i) else m) ttl

/-- dnscache.c 448-453: the second loop, which writes the lifetime. -/
def setLoop (cfg : Cfg) (item : List Byte) (m : Nat) (now : Int) (fuel : Nat) : Nat → St → Int → Option St
  | 0, _, _ => none
  | n + 1, st, i =>
    match find cfg st item now fuel i with
    | none => none
    | some none => some st
    | some (some j) =>
      let st : St := { st with ht := st.ht.set j { st.ht.nodes j with ttl := m, added := now } }
      setLoop cfg item m now fuel n st (st.ht.nodes j).next

/-- dnscache.c 433-456 `DNSCache_CacheMinTTL`. -/
def cacheMinTTL (cfg : Cfg) (st : St) (key : List Byte) (ttl : Nat) (now : Int) : Option (Nat × St) :=
  let first := st.ht.slots (slotOf cfg key)
  match findAll cfg st (key ++ [0]) now st.fuel st.fuel first with
  | none => none
  | some is =>
    let m := minRemaining st is ttl now
    (setLoop cfg (key ++ [0]) m now st.fuel st.fuel st first).map (m, ·)

/-- What became of an item. -/
inductive Stored where
  | duplicate
  | zeroTTL
  | noRoom
  | stored
deriving DecidableEq, Repr

/-- dnscache.c 525-628, the part of `DNSCache_AddAItemToCache` behind the construction of the item
`key NUL data`, with the lifetime `ttl` determined in 538-587. -/
def addItem (cfg : Cfg) (st : St) (key data : List Byte) (ttl : Nat) (now : Int) : Option (St × Stored) :=
  let item := key ++ 0 :: data
  match find cfg st item now st.fuel (st.ht.slots (slotOf cfg key)) with
  | none => none
  | some (some _) => some (st, .duplicate)
  | some none =>
    if ttl = 0 then some (st, .zeroTTL)
    else
      match getChunk cfg st now (item.length + 1) with
      | none => none
      | some (st, none) => some (st, .noRoom)
      | some (st, some i) =>
        let st : St := { st with mem := poke st.mem (st.ht.nodes i).offset (0xFF :: item) }
        let st : St := { st with ht := st.ht.set i { st.ht.nodes i with used := item.length + 1 } }
        match (if cfg.parallel then cacheMinTTL cfg st key ttl now else some (ttl, st)) with
        | none => none
        | some (m, st) =>
          let st : St := { st with ht := st.ht.set i { st.ht.nodes i with ttl := m, added := now } }
          some ({ st with ht := insert st.ht (slotOf cfg key) i }, .stored)

/-- dnscache.c 69-92: the loop of the sweep over the node numbers below `n`, from the last one down. -/
def sweepLoop (cfg : Cfg) (now : Int) (fuel : Nat) : Nat → St → Bool → Option (St × Bool)
  | 0, st, got => some (st, got)
  | n + 1, st, got =>
    if n < st.ht.used then
      if (st.ht.nodes n).ttl > 0 ∧ now - (st.ht.nodes n).added ≥ (st.ht.nodes n).ttl then
        let st : St := { st with ht := st.ht.set n { st.ht.nodes n with ttl := 0 } }
        let st : St := { st with mem := poke st.mem (st.ht.nodes n).offset [0xFD] }
        match remove cfg.nslots st.ht n fuel with
        | none => none
        | some ht => sweepLoop cfg now fuel n { st with ht := ht } true
      else sweepLoop cfg now fuel n st got
    else some (st, got)

/-- dnscache.c 59-107 `DNSCacheTTLCountdown_Task`. -/
def sweep (cfg : Cfg) (st : St) (now : Int) : Option St :=
  match sweepLoop cfg now st.fuel st.ht.used st false with
  | none => none
  | some (st, false) => some st
  | some (st, true) =>
    some { st with cend :=
      if st.ht.used = 0 then cfg.hdr
      else (st.ht.nodes (st.ht.used - 1)).offset + (st.ht.nodes (st.ht.used - 1)).length }

/-- The bytes of the area from `off` on. -/
def peek (mem : Nat → Byte) (off n : Nat) : List Byte := (List.range n).map (fun i => mem (off + i))

/-- dnscache.c 708-746, the loop of `DNSCache_GetRawRecordsFromCache` up to the generator: the data and
lifetime of every record found for `key`. -/
def answers (cfg : Cfg) (st : St) (key : List Byte) (now : Int) : Option (List (List Byte × Nat)) :=
  match findAll cfg st (key ++ [0]) now st.fuel st.fuel (st.ht.slots (slotOf cfg key)) with
  | none => none
  | some is =>
    some ((is.filter fun i => (st.ht.nodes i).ttl ≠ 0).map fun i =>
      (peek st.mem ((st.ht.nodes i).offset + 1 + key.length + 1) ((st.ht.nodes i).used - (1 + key.length + 1)),
        if cfg.ignoreTTL then (st.ht.nodes i).ttl else remaining now (st.ht.nodes i)))

/-- What the threads of the program do to the cache: storing a record (`DNSCache_AddAItemToCache`) and
the timed sweep, each under the cache's write lock. -/
inductive Op where
  | add (key data : List Byte) (ttl : Nat) (now : Int)
  | sweep (now : Int)
deriving DecidableEq

/-- One operation. -/
def step (cfg : Cfg) (st : St) : Op → Option St
  | .add key data ttl now => (addItem cfg st key data ttl now).map Prod.fst
  | .sweep now => sweep cfg st now

/-- A history of operations. -/
def run (cfg : Cfg) : St → List Op → Option St
  | st, [] => some st
  | st, o :: os =>
    match step cfg st o with
    | none => none
    | some st => run cfg st os

end Verif.Cache
