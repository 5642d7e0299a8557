import Verif.Model.Parser
/-! Model of `DnsGenerator` and `DNSCompress` (dnsgenerator.c).

A generator is its buffer size, the bytes written so far (`Buffer` up to `Itr`) and the offset of the
count of the section being filled (`NumberOfRecords - Buffer`).  What the rest of the buffer holds is
not represented.  A write outside the buffer is the outcome `none`. -/

namespace Verif.Generator
open Name Parser

/-- dnsgenerator.h 36-50 `DnsGenerator`. -/
structure Gen where
  cap : Nat
  out : List Byte
  num : Nat
deriving DecidableEq, Repr

/-- dnsparser.h 13 `SET_16_BIT_U_INT`: big endian, truncating. -/
def set16 (v : Nat) : List Byte := [UInt8.ofNat (v / 256), UInt8.ofNat v]
/-- dnsparser.h 14 `SET_32_BIT_U_INT`. -/
def set32 (v : Nat) : List Byte := set16 (v / 65536) ++ set16 v

/-- dnsgenerator.c 104-128 `CurrentPurpose`. -/
def purposeOf (num : Nat) : Purpose :=
  if num = 4 then .question
  else if num = 6 then .answer
  else if num = 8 then .nameServer
  else if num = 10 then .additional
  else .unknown

/-- dnsgenerator.c 130-140 `NextPurpose`: the new generator and the returned purpose. -/
def nextPurpose (g : Gen) : Gen × Purpose :=
  if purposeOf g.num = .unknown then (g, .unknown)
  else ({ g with num := g.num + 2 }, purposeOf (g.num + 2))

/-- The fields of a record written one after the other, each with its check `LEFT_LENGTH(g) < n`
(dnsgenerator.c 142; 146-179 `NamePart`, 181 `16Uint`, 195 `32Uint`, 209 `IPv4`, 223 `IPv6`).  The
first that does not fit ends it with its return code; what was written before stays. -/
def writes (g : Gen) : List (Int × List Byte) → Int × Gen
  | [] => (0, g)
  | (code, bs) :: rest =>
    if g.out.length + bs.length ≤ g.cap then writes { g with out := g.out ++ bs } rest
    else (code, g)

/-- The 16-bit number at `i` in the written part (inside it in every use). -/
def get16 (out : List Byte) (i : Nat) : Nat := (out.getD i 0).toNat * 256 + (out.getD (i + 1) 0).toNat

/-- Overwrites `bs.length` bytes from `i` on. -/
def overwrite (out : List Byte) (i : Nat) (bs : List Byte) : List Byte :=
  out.take i ++ bs ++ out.drop (i + bs.length)

/-- dnsgenerator.c 264-266 and so on: the section count plus one. -/
def bump (g : Gen) : Gen := { g with out := overwrite g.out g.num (set16 (get16 g.out g.num + 1)) }

/-- The last step of every append: count only if everything was written. -/
def counted (r : Int × Gen) : Int × Gen := if r.1 = 0 then (0, bump r.2) else r

/-- dnsgenerator.c 238-269 `Question`. -/
def question (g : Gen) (name : List Byte) (type klass : Nat) : Int × Gen :=
  if purposeOf g.num ≠ .question then (1, g)
  else counted (writes g [(-1, labelize name), (-2, set16 type), (-3, set16 klass)])

/-- dnsgenerator.c 277-283 and so on: resource records go to the last three sections. -/
def recordSection (g : Gen) : Bool :=
  purposeOf g.num = .answer ∨ purposeOf g.num = .nameServer ∨ purposeOf g.num = .additional

/-- dnsgenerator.c 271-322 `CName`. -/
def cname (g : Gen) (name target : List Byte) (ttl : Nat) : Int × Gen :=
  if ¬ recordSection g then (1, g)
  else counted (writes g [(-1, labelize name), (-2, set16 5), (-3, set16 1), (-4, set32 ttl),
    (-5, set16 (labelLength target)), (-6, labelize target)])

/-- dnsgenerator.c 324-381 `MX`. -/
def mx (g : Gen) (name : List Byte) (pref : Nat) (target : List Byte) (ttl : Nat) : Int × Gen :=
  if ¬ recordSection g then (1, g)
  else counted (writes g [(-1, labelize name), (-2, set16 15), (-3, set16 1), (-4, set32 ttl),
    (-5, set16 (labelLength target + 2)), (-6, set16 pref), (-7, labelize target)])

/-- dnsgenerator.c 383-434 `A`; `addr` are the 4 bytes written by `IPv4AddressToNum`. -/
def addA (g : Gen) (name addr : List Byte) (ttl : Nat) : Int × Gen :=
  if ¬ recordSection g then (1, g)
  else counted (writes g [(-1, labelize name), (-2, set16 1), (-3, set16 1), (-4, set32 ttl),
    (-5, set16 4), (-6, addr)])

/-- dnsgenerator.c 436-487 `AAAA`; `addr` are the 16 bytes written by `IPv6AddressToNum`. -/
def addAAAA (g : Gen) (name addr : List Byte) (ttl : Nat) : Int × Gen :=
  if ¬ recordSection g then (1, g)
  else counted (writes g [(-1, labelize name), (-2, set16 28), (-3, set16 1), (-4, set32 ttl),
    (-5, set16 16), (-6, addr)])

/-- dnsgenerator.c 489-528 `EDns`. -/
def edns (g : Gen) (payload : Nat) : Int × Gen :=
  if purposeOf g.num ≠ .additional then (1, g)
  else counted (writes g [(-1, labelize []), (-2, set16 41), (-3, set16 payload), (-4, set32 0),
    (-5, set16 0)])

/-- dnsgenerator.c 530-587 `RawData`: the data are copied without a check (578), outcome `none` if
they do not fit. -/
def rawData (g : Gen) (name : List Byte) (type klass : Nat) (data : List Byte) (ttl : Nat) :
    Option (Int × Gen) :=
  if ¬ recordSection g then some (1, g)
  else if data.length = 0 then some (2, g)
  else
    let r := writes g [(-1, labelize name), (-2, set16 type), (-3, set16 klass), (-4, set32 ttl),
      (-5, set16 data.length)]
    if r.1 ≠ 0 then some r
    else if r.2.out.length + data.length ≤ r.2.cap then
      some (0, bump { r.2 with out := r.2.out ++ data })
    else none

/-- dnsgenerator.c 589-595 `CopyHeader`, without the counts. -/
def copyHeader (g : Gen) (src : List Byte) : Gen := { g with out := overwrite g.out 0 (src.take 4) }

/-- dnsgenerator.c 597-600 `SetIdentifier`. -/
def setIdentifier (g : Gen) (v : Nat) : Gen := { g with out := overwrite g.out 0 (set16 v) }

/-- dnsgenerator.c 602-680 `CopyCName` of the record at `pos` of the message `mem`; `type`, `klass`,
`ttl` are the iterator's and `row` is its `RowData`.  Outer `none`: `DNSCopyLable` did not end within
the given number of steps. -/
def copyCName (g : Gen) (mem : Nat → Byte) (pos row type klass ttl fuel : Nat) : Option (Int × Gen) :=
  if ¬ recordSection g then some (1, g)
  else if type ≠ 5 ∨ klass ≠ 1 then some (2, g)
  else
    match copyLabel mem fuel pos, copyLabel mem fuel row with
    | some owner, some target =>
      some (counted (writes g [(-1, owner), (-2, set16 type), (-3, set16 klass), (-4, set32 ttl),
        (-5, set16 target.length), (-6, target)]))
    | _, _ => none

/-- dnsgenerator.c 682-738 `CopyA` (`n = 4`, type 1) and 740-796 `CopyAAAA` (`n = 16`, type 28): the
data are `n` bytes from `row`, whatever the record's data length. -/
def copyAddr (g : Gen) (mem : Nat → Byte) (want n pos row type klass ttl fuel : Nat) :
    Option (Int × Gen) :=
  if ¬ recordSection g then some (1, g)
  else if type ≠ want ∨ klass ≠ 1 then some (2, g)
  else
    match copyLabel mem fuel pos with
    | some owner =>
      some (counted (writes g [(-1, owner), (-2, set16 type), (-3, set16 klass), (-4, set32 ttl),
        (-5, set16 n), (-6, (span row n).map mem)]))
    | none => none

/-- The bytes of the C string at the start of `d`: up to the first NUL. -/
def cstr (d : List Byte) : List Byte := d.takeWhile (· ≠ 0)

/-- dnsgenerator.c 834-869 `Generate`.  A name is read up to its NUL; `none`: there is none in the data, so that the memory
behind them is read. -/
def generate (g : Gen) (name : List Byte) (type klass : Nat) (data : List Byte) (ttl : Nat) :
    Option (Int × Gen) :=
  if type = 1 ∨ type = 28 ∨ type = 65 ∨ type = 16 then rawData g name type klass data ttl
  else if type = 5 ∨ type = 12 ∨ type = 2 then if 0 ∈ data then some (cname g name (cstr data) ttl) else none
  else if type = 15 then
    if 0 ∈ data.drop 2 then some (mx g name (get16 data 0) (cstr (data.drop 2)) ttl) else none
  else some (-256, g)

/-- dnsgenerator.c 820-824: the loop of `StripedLength`, at most `n` times. -/
def stripLoop (b : List Byte) (len : Nat) (c : Counts) : Nat → Itr → Option Nat
  | 0, _ => none
  | n + 1, it =>
    match next b len c it with
    | none => none
    | some (_, none) => some len
    | some (it', some p) =>
      if it'.purpose = .question ∨ it'.purpose = .answer then stripLoop b len c n it' else some p

/-- dnsgenerator.c 803-832 `StripedLength` of a message of at least 12 bytes. -/
def stripedLength (b : List Byte) (len : Nat) (c : Counts) : Option Nat :=
  stripLoop b len c (c.all + 1) Itr.init

/-- dnsgenerator.c 918-931: the last section with a count above zero. -/
def lastSection (c : Counts) : Nat :=
  if 0 < c.ar then 10 else if 0 < c.ns then 8 else if 0 < c.an then 6 else 4

/-- dnsgenerator.c 871-965 `DnsGenerator_Init` from a message of `len ≥ 12` bytes at the start of the
memory `b` (a shorter source is outside the model; the callers pass a parsed message).  The copy is not
checked against the buffer size: `none` if it does not fit, and if the source is read outside `b`. -/
def initFrom (cap : Nat) (b : List Byte) (len : Nat) (strip : Bool) : Option Gen :=
  match counts b with
  | none => none
  | some c =>
    if strip then
      match stripedLength b len c with
      | none => none
      | some n =>
        if n ≤ cap ∧ n ≤ b.length ∧ 12 ≤ n then
          some ⟨cap, overwrite (b.take n) 8 [0, 0, 0, 0], lastSection { c with ns := 0, ar := 0 }⟩
        else none
    else if len ≤ cap ∧ len ≤ b.length ∧ 12 ≤ len then some ⟨cap, b.take len, lastSection c⟩
    else none

/-- dnsgenerator.c 938-946: without a source; `old` are the first four bytes of the buffer. -/
def initEmpty (cap : Nat) (old : List Byte) : Option Gen :=
  if 12 ≤ cap then some ⟨cap, old ++ [0, 0, 0, 0, 0, 0, 0, 0], 4⟩ else none

/-- `while( g.NextPurpose(&g) != ADDITIONAL );` (iheader.c 135 and others), at most `n` times. -/
def toAdditional : Nat → Gen → Option Gen
  | 0, _ => none
  | n + 1, g =>
    match nextPurpose g with
    | (g', p) => if p = .additional then some g' else toAdditional n g'

/-- iheader.c 113-143 `MsgContext_AddFakeEdns` when it acts: `b` is the query, `cap` the room for it.
The loop is given `n` rounds. -/
def addFakeEdns (cap : Nat) (b : List Byte) (n : Nat) : Option Gen :=
  match initFrom cap b b.length false with
  | none => none
  | some g =>
    match toAdditional n g with
    | none => none
    | some g' => some (edns g' 1280).2

/-- dnsgenerator.h 30 `DNSLabelMakePointer`. -/
def makePointer (loc : Nat) : List Byte := [UInt8.ofNat (192 + loc / 256), UInt8.ofNat loc]

/-- dnsgenerator.c 60-95: the loop of `DNSCompress`, at most `n` times.  The message is all of `b`
(bytes behind it are not represented); `last` is `LastName - RawDns`.  `GetName` without a buffer is
the loop of `skip` (`skip_eq_getName`).  Returns the code and the message. -/
def compressLoop (c : Counts) : Nat → List Byte → Itr → Nat → Option (Int × List Byte)
  | 0, _, _, _ => none
  | n + 1, b, it, last =>
    match next b b.length c it with
    | none => none
    | some (_, none) => some (b.length, b)
    | some (it', some p) =>
      if it'.purpose ≠ .answer then some (b.length, b)
      else if it'.klass ≠ 1 then compressLoop c n b it' last
      else
        match skipAt b p with
        | none => none
        | some k =>
          if k < 2 then some (-4, b)
          else
            let b' := b.take p ++ (makePointer last ++ b.drop (p + k))
            compressLoop c n b' it' (if it'.type = 5 then p + 2 + 10 else last)

/-- dnsgenerator.c 34-98 `DNSCompress`. -/
def compress (b : List Byte) : Option (Int × List Byte) :=
  if b.length < 12 then some (-1, b)
  else
    match counts b with
    | none => none
    | some c =>
      match next b b.length c Itr.init with
      | none => none
      | some (_, none) => some (-3, b)
      | some (it, some last) =>
        if it.purpose ≠ .question then some (-3, b)
        else
          match gotoAnswers b b.length c it with
          | none => none
          | some it' => compressLoop c (c.all + 1) b it' last

end Verif.Generator
