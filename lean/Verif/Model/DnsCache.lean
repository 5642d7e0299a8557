import Verif.Model.Cache
import Verif.Model.CacheTtl
import Verif.Model.Hosts
/-! Model of the response cache at the level of messages (dnscache.c 369-381, 461-523, 633-963): which items a
response adds, and the reply built from the cache.  The store itself is `Verif.Model.Cache`.

`none` is undefined behaviour, or a name whose decoding does not end within the given steps. -/

namespace Verif.DnsCache
open Msg Parser Name Generator Cache

variable {Addr : Type}

/-- dnscache.c 14-57: the settings and rules, fixed after the start.  `fnm` is `fnmatch`. -/
structure Settings where
  cfg : Cfg
  rules : Option (StringChunk.Chunk CacheTtl.Rule)
  fnm : List Byte → List Byte → Bool

/-- One digit of the conversion `%X`. -/
def hexDigit (n : Nat) : Byte := if n < 10 then UInt8.ofNat (48 + n) else UInt8.ofNat (55 + n)

/-- The conversion `%X` of a number below `16 ^ d`. -/
def hexText : Nat → Nat → List Byte
  | 0, _ => []
  | d + 1, n => if n < 16 then [hexDigit n] else hexText d (n / 16) ++ [hexDigit (n % 16)]

/-- dnscache.c 494-499, 690-697, 765-772: `name type class`. -/
def keyOf (name : List Byte) (type klass : Nat) : List Byte :=
  name ++ 32 :: (hexText 4 type ++ 32 :: hexText 4 klass)

/-- dnscache.c 369-381 `IsValidCachedType`. -/
def cachedType (t : Nat) : Bool := t == 1 || t == 28 || t == 65 || t == 16 || t == 5 || t == 12 || t == 2 || t == 15

/-- dnsparser.c 748-823 `UnpackLabeledName` for the cache: the text of the name at `p` with its NUL, if it
fits `avail` bytes.  The intermediate buffer holds 254 bytes. -/
def nameItem (b : List Byte) (len fuel p avail : Nat) : Option (Option (List Byte)) :=
  if avail < 3 then some none
  else
    match (getHostName (memAt b) len p (some 254) fuel).out with
    | .noFuel | .oob => none
    | .fail _ => some none
    | .ok _ buf => if (cstr buf).length + 1 ≤ avail then some (some (cstr buf ++ [0])) else some none

/-- dnsparser.c 1201-1261 `ToCacheData` for the types of `cachedType`: the data kept, if any (a length of 0
counts as none, dnscache.c 517).  `row` is where the record's data start. -/
def cacheData (b : List Byte) (len fuel type row dl avail : Nat) : Option (Option (List Byte)) :=
  if type = 5 ∨ type = 12 ∨ type = 2 then nameItem b len fuel row avail
  else if type = 15 then
    if dl = 0 then some none
    else if avail < 2 then some none
    else if b.length < row + 2 then none
    else if dl ≤ 2 then some (some ((b.drop row).take 2))
    else (nameItem b len fuel (row + 2) (avail - 2)).map (·.map ((b.drop row).take 2 ++ ·))
  else
    if dl ≥ avail ∨ dl = 0 then some none
    else if b.length < row + dl then none
    else some (some ((b.drop row).take dl))

/-- dnscache.c 461-523: the item of the record at `p`, as its key and data; it must fit 512 bytes. -/
def itemOf (b : List Byte) (len fuel type klass p dl : Nat) : Option (Option (List Byte × List Byte)) :=
  match (getHostName (memAt b) len p (some 511) fuel).out with
  | .noFuel | .oob => none
  | .fail _ => some none
  | .ok _ buf =>
    let key := keyOf (cstr buf) type klass
    if 1 + key.length + 1 ≥ 512 then some none
    else
      match rowData b p with
      | none => none
      | some row =>
        match cacheData b len fuel type row dl (512 - (1 + key.length + 1)) with
        | none => none
        | some none => some none
        | some (some d) => if 1 + key.length + 1 + d.length ≥ 512 then some none else some (some (key, d))

/-- dnscache.c 656-666: what one round of the loop does: at most one record handed to the store. -/
def recordOp (s : Settings) (b : List Byte) (len fuel : Nat) (question behind : List Byte) (now : Int) (it : Itr) :
    Option (List Op) :=
  if it.purpose ≠ .unknown ∧ it.purpose ≠ .question ∧ cachedType it.type = true ∧ it.klass = 1 then
    match it.pos with
    | none => none
    | some p =>
      match itemOf b len fuel it.type it.klass p it.dataLen with
      | none => none
      | some none => some []
      | some (some (key, d)) =>
        match getTTL b p with
        | none => none
        | some ttl => some [.add key d (CacheTtl.effective s.rules s.fnm question behind key ttl) now]
  else some []

/-- dnscache.c 656-666: the loop, at most `n` rounds; `clock` gives the time at each record. -/
def recordOps (s : Settings) (b : List Byte) (len fuel : Nat) (question behind : List Byte) (clock : Nat → Int)
    (c : Counts) : Nat → Itr → Option (List Op)
  | 0, _ => none
  | n + 1, it =>
    match next b len c it with
    | none => none
    | some (_, none) => some []
    | some (it', some _) =>
      match recordOp s b len fuel question behind (clock it'.num) it', recordOps s b len fuel question behind clock c n it' with
      | some o, some os => some (o ++ os)
      | _, _ => none

/-- dnscache.c 633-675 `DNSCache_AddItemsToCache` (cache inited) of a message in the first `len` bytes of `b`;
`question` is `Header->Domain`: the operations on the store, in order. -/
def addOps (s : Settings) (b : List Byte) (len fuel : Nat) (question behind : List Byte) (clock : Nat → Int)
    (first : Bool) : Option (List Op) :=
  if first = false ∧ s.cfg.parallel = false then some []
  else if initOk len = false then some []
  else
    match counts b with
    | none => none
    | some c => recordOps s b len fuel question behind clock c (c.all + 1) Itr.init

/-- What happens to the cache: a message arrives (udpm.c 237, tcpm.c 719), or the timed sweep runs. -/
inductive Event where
  | response (b : List Byte) (len fuel : Nat) (question behind : List Byte) (clock : Nat → Int) (first : Bool)
  | sweep (now : Int)

def Event.ops (s : Settings) : Event → Option (List Op)
  | .response b len fuel question behind clock first => addOps s b len fuel question behind clock first
  | .sweep now => some [.sweep now]

/-- The operations on the store of a sequence of events. -/
def history (s : Settings) : List Event → Option (List Op)
  | [] => some []
  | e :: es =>
    match e.ops s, history s es with
    | some o, some os => some (o ++ os)
    | _, _ => none

/-- dnscache.c 727-739: data and lifetime shown of node `i` for a key of length `k`. -/
def nodeData (cfg : Cfg) (st : St) (k : Nat) (now : Int) (i : Nat) : List Byte × Nat :=
  (peek st.mem ((st.ht.nodes i).offset + 1 + k + 1) ((st.ht.nodes i).used - (1 + k + 1)),
    if cfg.ignoreTTL then (st.ht.nodes i).ttl else remaining now (st.ht.nodes i))

/-- dnscache.c 758-804 `DNSCache_GetCNameFromCache` and 845-850: the alias of a name and the lifetime
shown.  The second search only serves a warning.  Simplification: the text is taken up to its NUL inside
the node. -/
def cnameFrom (cfg : Cfg) (st : St) (name : List Byte) (now : Int) : Option (Option (List Byte × Nat)) :=
  let key := keyOf name 5 1
  if key.length ≥ 264 then some none
  else
    match find cfg st (key ++ [0]) now st.fuel (st.ht.slots (slotOf cfg key)) with
    | none => none
    | some none => some none
    | some (some i) => some (some (cstr (nodeData cfg st key.length now i).1, (nodeData cfg st key.length now i).2))

/-- dnscache.c 708-748: the records found, one after the other, until one cannot be written.  `ret` is
`Ret`. -/
def rawLoop (g : Gen) (name : List Byte) (type klass : Nat) (ret : Int) : List (List Byte × Nat) → Option (Int × Gen)
  | [] => some (ret, g)
  | (d, ttl) :: l =>
    match generate g name type klass d ttl with
    | none => none
    | some (code, g') => if code ≠ 0 then some (ret, g') else rawLoop g' name type klass 0 l

/-- dnscache.c 677-756 `DNSCache_GetRawRecordsFromCache`. -/
def rawRecords (cfg : Cfg) (st : St) (g : Gen) (name : List Byte) (type klass : Nat) (now : Int) : Option (Int × Gen) :=
  let key := keyOf name type klass
  if key.length ≥ 264 then some (-609, g)
  else
    match answers cfg st key now with
    | none => none
    | some l => rawLoop g name type klass (-100) l

/-- dnscache.c 838-866: the aliases from `name` on, at most `n` of them: the name reached (`none`: one could
not be written) and the generator. -/
def cnameLoop (cfg : Cfg) (st : St) (now : Int) : Nat → List Byte → Gen → Option (Option (List Byte) × Gen)
  | 0, _, _ => none
  | n + 1, name, g =>
    match cnameFrom cfg st name now with
    | none => none
    | some none => some (some name, g)
    | some (some (target, ttl)) =>
      match cname g (str "a") target ttl with
      | (code, g') => if code ≠ 0 then some (none, g') else cnameLoop cfg st now n target g'

/-- dnscache.c 806-877 `DNSCache_GetByQuestion` for the query in the first `len` bytes of `b`.  Each alias
takes space in the buffer, so that the loop ends within `cap + 1` rounds. -/
def getByQuestion (cfg : Cfg) (st : St) (b : List Byte) (len fuel : Nat) (now : Int) (g : Gen) : Option (Int × Gen) :=
  match counts b with
  | none => none
  | some c =>
    match next b len c Itr.init with
    | none => none
    | some (_, none) => some (-2, g)
    | some (it, some p) =>
      if it.purpose ≠ .question then some (-2, g)
      else if it.klass ≠ 1 ∨ cachedType it.type = false then some (-4, g)
      else
        match (getHostName (memAt b) len p (some 254) fuel).out with
        | .noFuel | .oob => none
        | .fail _ => some (-3, g)
        | .ok _ buf =>
          match (if it.type ≠ 5 then cnameLoop cfg st now (g.cap + 1) (cstr buf) g else some (some (cstr buf), g)) with
          | none => none
          | some (none, g') => some (-5, g')
          | some (some name, g') =>
            match rawRecords cfg st g' name it.type it.klass now with
            | none => none
            | some (code, g'') => some (if code ≠ 0 then -6 else 0, g'')

/-- dnscache.c 879-963 `DNSCache_FetchFromCache` (cache inited): the return value and what is sent. -/
def fetch (cfg : Cfg) (st : St) (behind : List Byte) (fuel : Nat) (now : Int) (m : Ctx Addr) :
    Option (Int × List (Sent Addr)) :=
  if initOk m.entity.length = false then some (-1, [])
  else
    match initFrom behind.length (m.entity ++ behind) m.entity.length true with
    | none => none
    | some g =>
      match nextPurpose g with
      | (g1, p) =>
        if p ≠ .answer then some (-5, [])
        else
          match getByQuestion cfg st (m.entity ++ behind) m.entity.length fuel now g1 with
          | none => none
          | some (code, g2) =>
            if code ≠ 0 then some (-3, [])
            else
              let g2 := Hosts.replyFlags g2
              match (if m.edns then (toAdditional 3 g2).map (fun g3 => Generator.edns g3 1280) else some (0, g2)) with
              | none => none
              | some (code, g3) =>
                if code ≠ 0 then some (-4, [])
                else
                  match compress g3.out with
                  | none => none
                  | some (l, b) => if l < 0 then some (-6, []) else some (0, [sendBack { m with entity := b }])

end Verif.DnsCache
