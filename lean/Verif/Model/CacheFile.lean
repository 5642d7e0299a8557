import Verif.Model.Cache
/-! Model of the cache file: the single stores the operations of `Verif.Model.Cache` are made of, in the
order of the code, a program that is killed between two of them, and a start with an existing file.

The area is a shared mapping of the file (`MAP_SHARED`, common.h 221), so the stores of a program that is
killed are in the file.  The stores are taken in the order of the source (a compiler may reorder them);
a machine that loses power is not modelled.  The number of records (`CacheCount`) is left out: nothing
depends on it. -/

namespace Verif.CacheFile
open Verif.CacheHT Verif.Cache

/-- One store into the area: a field of a node (or of the free list's view of it), a slot, the counters
and list heads in the header, or a byte of a block. -/
inductive W where
  | slot (i : Nat) (v : Int)
  | next (i : Nat) (v : Int)
  | offset (i : Nat) (v : Nat)
  | ttl (i : Nat) (v : Nat)
  | added (i : Nat) (v : Int)
  | length (i : Nat) (v : Nat)
  | used (i : Nat) (v : Nat)
  | bucket (s : Nat) (v : Int)
  | count (v : Nat)
  | free (v : Int)
  | cend (v : Nat)
  | byte (k : Nat) (b : Byte)
deriving DecidableEq

/-- A store into the index. -/
def W.onHT (h : HT) : W → HT
  | .slot i v => h.set i { h.nodes i with slot := v }
  | .next i v => h.set i { h.nodes i with next := v }
  | .offset i v => h.set i { h.nodes i with offset := v }
  | .ttl i v => h.set i { h.nodes i with ttl := v }
  | .added i v => h.set i { h.nodes i with added := v }
  | .length i v => h.set i { h.nodes i with length := v }
  | .used i v => h.set i { h.nodes i with used := v }
  | .bucket s v => h.setSlot s v
  | .count v => { h with used := v }
  | .free v => { h with free := v }
  | .cend _ => h
  | .byte _ _ => h

/-- The effect of a store. -/
def W.apply (st : St) (w : W) : St :=
  { ht := w.onHT st.ht,
    cend := match w with | .cend v => v | _ => st.cend,
    mem := match w with | .byte k b => fun i => if i = k then b else st.mem i | _ => st.mem }

/-- Several stores, one after the other. -/
def writes (st : St) (ws : List W) : St := ws.foldl W.apply st

/-- The bytes `bs` stored one by one from `off` on (`memcpy`, `memset`). -/
def bytesW : Nat → List Byte → List W
  | _, [] => []
  | off, b :: bs => .byte off b :: bytesW (off + 1) bs

/-- cacheht.c 118-126: the stores of `age`. -/
def ageW (now : Int) (h : HT) (pre : Option Nat) (c : Nat) : List W :=
  match pre with
  | none => []
  | some p =>
    if (h.nodes p).used > (h.nodes c).used ∧ (h.nodes p).added - (h.nodes c).added ≥ 59 then
      [.used p (h.nodes c).used, .added p now]
    else []

/-- `h->Free2DList = v` or `PreHead->KeyNext = v`. -/
def linkW (pre : Option Nat) (v : Int) : W :=
  match pre with
  | none => .free v
  | some p => .slot p v

/-- cacheht.c 133-177: the stores of `unlink`. -/
def unlinkW (now : Int) (h : HT) (grand pre : Option Nat) (c : Nat) : List W :=
  let n := h.nodes c
  [.added c now, .used c (n.used + 1)] ++
    if n.next ≥ 0 then
      let e := n.next.toNat
      [.slot e n.slot, .added e now, .used e (n.used + 1)] ++
        match pre with
        | none => [linkW none e]
        | some p =>
          if ((n.used + 1 : Nat) : Int) - (h.nodes p).used < 5 then [linkW (some p) e]
          else [.slot p n.slot, .slot e p, linkW grand e]
    else [linkW pre n.slot]

/-- cacheht.c 112-195: the stores of `findLoop`. -/
def findW (now : Int) (chunk : Nat) : Nat → HT → Option Nat → Option Nat → Int → List W
  | 0, _, _, _, _ => []
  | fuel + 1, h, grand, pre, cur =>
    if cur < 0 then []
    else if cur.toNat < h.used then
      let c := cur.toNat
      let h1 := age now h pre c
      if (h1.nodes c).length = chunk then
        ageW now h pre c ++ unlinkW now h1 grand pre c ++ [.used c 0, .next c (-1)]
      else ageW now h pre c ++ findW now chunk fuel h1 pre (some c) (h1.nodes c).slot
    else []

/-- cacheht.c 61-86 with array.c 120 and dnscache.c 394-398: the stores that make a new block of `r`
bytes: the count of nodes, `Next`, `Length`, `UsedLength`, `Offset`, the end of the blocks. -/
def growW (st : St) (r : Nat) : List W :=
  let i := st.ht.used
  [.count (i + 1), .next i (-1), .length i r, .used i 0, .offset i st.cend, .cend (st.cend + r)]

/-- dnscache.c 383-408: the stores of `getChunk` up to the padding, in steps.  A step of more than one
store is a window in which the file is in a state of its own. -/
def chunkW (cfg : Cfg) (st : St) (now : Int) (len : Nat) : List (List W) :=
  let r := roundUp len
  let ws := findW now r st.fuel st.ht none none st.ht.free
  ws.map ([·]) ++
    match findLoop now r st.fuel st.ht none none st.ht.free with
    | some (h, none) =>
      if nodeAddr cfg.size cfg.nslots h.used < ((st.cend + r : Nat) : Int) then []
      else [growW { st with ht := h } r]
    | _ => []

/-- dnscache.c 448-453: the stores of `DNSCache_CacheMinTTL` into the nodes `is`. -/
def shareW (is : List Nat) (m : Nat) (now : Int) : List (List W) := is.map fun j => [.ttl j m, .added j now]

/-- dnscache.c 612-617 with cacheht.c 231-240: the lifetime, the time, the slot, and the links. -/
def publishW (h : HT) (s i m : Nat) (now : Int) : List W :=
  [.ttl i m, .added i now, .slot i s, .next i (h.slots s), .bucket s i]

/-- dnscache.c 525-628: the stores of `addItem`, in steps. -/
def addW (cfg : Cfg) (st : St) (key data : List Byte) (ttl : Nat) (now : Int) : List (List W) :=
  let item := key ++ 0 :: data
  match find cfg st item now st.fuel (st.ht.slots (slotOf cfg key)) with
  | some none =>
    if ttl = 0 then []
    else
      chunkW cfg st now (item.length + 1) ++
        match getChunk cfg st now (item.length + 1) with
        | some (st1, some i) =>
          let off := (st1.ht.nodes i).offset
          let r := roundUp (item.length + 1)
          let st2 : St := { st1 with mem := poke st1.mem off (0xFF :: item) }
          let st3 : St := { st2 with ht := st2.ht.set i { st2.ht.nodes i with used := item.length + 1 } }
          let is := (findAll cfg st3 (key ++ [0]) now st3.fuel st3.fuel (st3.ht.slots (slotOf cfg key))).getD []
          let m := if cfg.parallel then minRemaining st3 is ttl now else ttl
          (bytesW (off + (item.length + 1)) (List.replicate (r - (item.length + 1)) 0xFE)).map ([·]) ++
            (bytesW off (0xFF :: item)).map ([·]) ++ [[.used i (item.length + 1)]] ++
            (if cfg.parallel then shareW is m now else []) ++
            [publishW st3.ht (slotOf cfg key) i m now]
        | _ => []
  | _ => []

/-- cacheht.c 274-354: the stores of `addFree`, in steps. -/
def addFreeW (h : HT) (i : Nat) (fuel : Nat) : List (List W) :=
  match groupLoop h (h.nodes i).length fuel none h.free with
  | none => []
  | some (pre, cur) =>
    if cur < 0 then [[.slot i h.free], [.used i 0], [.free i, .next i cur]]
    else [[.slot i (h.nodes cur.toNat).slot], [.used i (h.nodes cur.toNat).used], [linkW pre i, .next i cur]]

/-- cacheht.c 356-395: the stores of `remove`, in steps. -/
def removeW (nslots : Nat) (h : HT) (i : Nat) (fuel : Nat) : List (List W) :=
  let n := h.nodes i
  if n.slot < 0 then []
  else if n.slot.toNat < nslots then
    match pred h (h.slots n.slot.toNat) i fuel with
    | none => []
    | some p =>
      let w : W := match p with | none => .bucket n.slot.toNat n.next | some q => .next q n.next
      let h1 := w.onHT h
      [w] :: if i + 1 ≠ h1.used then addFreeW h1 i fuel else [[.count (h1.used - 1)]]
  else []

/-- dnscache.c 69-92: the stores of the loop of the sweep, in steps. -/
def sweepLoopW (cfg : Cfg) (now : Int) (fuel : Nat) : Nat → St → List (List W)
  | 0, _ => []
  | n + 1, st =>
    if n < st.ht.used then
      if (st.ht.nodes n).ttl > 0 ∧ now - (st.ht.nodes n).added ≥ (st.ht.nodes n).ttl then
        let st1 : St := { st with ht := st.ht.set n { st.ht.nodes n with ttl := 0 } }
        let st2 : St := { st1 with mem := poke st1.mem (st1.ht.nodes n).offset [0xFD] }
        [[.ttl n 0], [.byte (st.ht.nodes n).offset 0xFD]] ++ removeW cfg.nslots st2.ht n fuel ++
          match remove cfg.nslots st2.ht n fuel with
          | none => []
          | some ht => sweepLoopW cfg now fuel n { st2 with ht := ht }
      else sweepLoopW cfg now fuel n st
    else []

/-- dnscache.c 59-107: the stores of the sweep, in steps. -/
def sweepW (cfg : Cfg) (st : St) (now : Int) : List (List W) :=
  sweepLoopW cfg now st.fuel st.ht.used st ++
    match sweepLoop cfg now st.fuel st.ht.used st false with
    | some (st, true) =>
      [[.cend (if st.ht.used = 0 then cfg.hdr
        else (st.ht.nodes (st.ht.used - 1)).offset + (st.ht.nodes (st.ht.used - 1)).length)]]
    | _ => []

/-- The stores of an operation, in steps. -/
def plan (cfg : Cfg) (st : St) : Op → List (List W)
  | .add key data ttl now => addW cfg st key data ttl now
  | .sweep now => sweepW cfg st now

/-- The file after the program was killed: `k` stores of the operation had been made. -/
def killed (cfg : Cfg) (st : St) (o : Op) (k : Nat) : St := writes st ((plan cfg st o).flatten.take k)

/-- What happens to a cache file: an operation of the running program, a kill in the middle of an
operation followed by a start that reloads the file, and a clean stop and such a start, with new values
of `IgnoreTTL` and `CacheParallel`. -/
inductive Ev where
  | op (o : Op)
  | kill (o : Op) (k : Nat)
  | restart (ignoreTTL parallel : Bool)

/-- One event.  A start that reloads (dnscache.c 126-141 `ReloadCache`, cacheht.c 53-59 `CacheHT_ReInit`)
takes the file as it is: it only sets pointers. -/
def event : Cfg × St → Ev → Option (Cfg × St)
  | (cfg, st), .op o => (step cfg st o).map (cfg, ·)
  | (cfg, st), .kill o k => some (cfg, killed cfg st o k)
  | (cfg, st), .restart i p => some ({ cfg with ignoreTTL := i, parallel := p }, st)

/-- The life of a file. -/
def life : Cfg × St → List Ev → Option (Cfg × St)
  | s, [] => some s
  | s, e :: es => (event s e).bind fun s => life s es

/-- dnscache.c 143-168 `CreateNewCache`: the area is set to zero first. -/
def blank (cfg : Cfg) : St := St.init cfg ⟨⟨fun _ => ⟨0, 0, 0, 0, 0, 0, 0⟩, 0, fun _ => 0, 0⟩, 0, fun _ => 0⟩

/-! ### the file at the start -/

/-- common.h 220 `CREATE_FILE_MAPPING`: one zero byte is written at offset `size`, behind the area. -/
def mapped (file : List Byte) (size : Nat) : List Byte :=
  if file.length ≤ size then file ++ List.replicate (size - file.length) 0 ++ [0] else file.set size 0

/-- A 32-bit number of the header (little endian). -/
def le32 (f : List Byte) (off : Nat) : Nat :=
  (f.getD off 0).toNat + 256 * (f.getD (off + 1) 0).toNat + 65536 * (f.getD (off + 2) 0).toNat + 16777216 * (f.getD (off + 3) 0).toNat

/-- dnscache.c 107-124 `IsReloadable`: `CACHE_VERSION` is 23. -/
def reloadable (f : List Byte) (size : Nat) : Bool := le32 f 0 == 23 && le32 f 4 == size

/-- What a start does with the file. -/
inductive Start where
  | reload (f : List Byte)
  | create
  | refuse (f : List Byte)
deriving DecidableEq

/-- dnscache.c 170-190 `InitCacheInfo` and 318-343: `file` is absent if it cannot be read. -/
def start (file : Option (List Byte)) (size : Nat) (reloadCache overwrite : Bool) : Start :=
  match file with
  | none => .create
  | some f =>
    let f := mapped f size
    if reloadCache then
      if reloadable f size then .reload f else if overwrite then .create else .refuse f
    else .create

/-! ### making a new file -/

/-- The header and the slots of a file that is being made, as far as a later start uses them: the words
`Ver`, `CacheSize` and `End`, the number of slots (`Slots.Used` and `Slots.Allocated`), the size of a node
(`NodeChunk.DataLength`), how many slots are set to -1 and the head of the free list. -/
structure New where
  ver : Nat := 0
  size : Nat := 0
  cend : Nat := 0
  used : Nat := 0
  alloc : Nat := 0
  buckets : Nat := 0
  nodeLen : Nat := 0
  free : Int := 0
deriving DecidableEq

/-- dnscache.c 143-168 `CreateNewCache` with cacheht.c 30-51 `CacheHT_Init`, after the area was set to
zero: the stores in the order of the code. -/
def createW (cfg : Cfg) : List (New → New) :=
  [fun n => { n with ver := 23 }, fun n => { n with size := cfg.size }, fun n => { n with cend := cfg.hdr },
    fun n => { n with used := cfg.nslots }, fun n => { n with alloc := cfg.nslots }] ++
  (List.replicate cfg.nslots fun n => { n with buckets := n.buckets + 1 }) ++
  [fun n => { n with nodeLen := 32 }, fun n => { n with free := -1 }]

/-- The file after `k` stores. -/
def creating (cfg : Cfg) (k : Nat) : New := ((createW cfg).take k).foldl (fun n w => w n) {}

/-- cacheht.c 397-433 `CacheHT_Get` on such a file once it is reloaded: no value is the division by zero of
line 399 (`Slots.Allocated` is 0); `false` is "no node".  A slot still 0 names node 0, which is outside the
empty table. -/
def New.get (n : New) (_hash : Nat) : Option Bool := if n.alloc = 0 then none else some false

/-! ### the sweep beside the other threads -/

/-- dnscache.c 71-73: the test of the sweep.  It is made before the lock is taken (line 77), so beside the
stores of another thread. -/
def test (st : St) (now : Int) (n : Nat) : Bool :=
  decide ((st.ht.nodes n).ttl > 0 ∧ now - (st.ht.nodes n).added ≥ (st.ht.nodes n).ttl)

/-- dnscache.c 94-106: the end of the sweep. -/
def close (cfg : Cfg) : St × Bool → St
  | (st, false) => st
  | (st, true) => { st with cend := if st.ht.used = 0 then cfg.hdr
      else (st.ht.nodes (st.ht.used - 1)).offset + (st.ht.nodes (st.ht.used - 1)).length }

/-- dnscache.c 69-106: the sweep comes to node `n` and tests it when another thread, which holds the lock,
has made `k` stores of the operation `o`; then it waits for the lock, so for the end of `o`, and goes on. -/
def race (cfg : Cfg) (st : St) (o : Op) (k n : Nat) (now : Int) : Option St :=
  match step cfg st o with
  | none => none
  | some st1 =>
    if test (killed cfg st o k) now n then
      let st1 : St := { st1 with ht := st1.ht.set n { st1.ht.nodes n with ttl := 0 } }
      let st1 : St := { st1 with mem := poke st1.mem (st1.ht.nodes n).offset [0xFD] }
      match remove cfg.nslots st1.ht n st1.fuel with
      | none => none
      | some ht => (sweepLoop cfg now st1.fuel n { st1 with ht := ht } true).map (close cfg)
    else (sweepLoop cfg now st1.fuel n st1 false).map (close cfg)

end Verif.CacheFile
