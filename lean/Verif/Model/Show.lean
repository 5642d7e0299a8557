import Verif.Model.IHeader
import Verif.Model.IpText
import Verif.Model.ReplaceStr
/-! Model of the text of a message for the log: `GetAllAnswers` (dnsparser.c 104-159) and `TextifyData` with the functions it
uses (dnsparser.c 492-1199), `DNSGetTypeName` (dnsrelated.c 77-90).

The message lies in the first `len` bytes of the memory `b`.  The text is written into a buffer of `cap` bytes whose length is
given as `size` (the code uses 1024 for both, logs.c 234-259).  Allocating memory always succeeds. -/

namespace Verif.Show
open Parser Name Msg Generator ReplaceStr

/-- What can go wrong: memory behind `b` is read, a buffer is overrun, a name is not decoded within the steps given. -/
inductive Fault where
  | outside | overrun | endless
deriving DecidableEq, Repr

/-- What a function does: it fails as said, returns 0 or less (`none`), or leaves a text at the start of its buffer. -/
abbrev Res := Except Fault (Option (List Byte))

/-- dnsrelated.c 5-48 `DNSTypeList` (type 0, whose name is NULL, left out: the walk never reports it). -/
def typeList : List (Nat × List Byte) :=
  [(1, str "IPv4 Address"), (2, str "Name Server"), (5, str "Canonical Name"), (6, str "Start of Authority"),
   (12, str "Domain Pointer"), (13, str "Host Information"), (15, str "MX"), (16, str "TXT"), (17, str "RP"),
   (18, str "AFSDB"), (24, str "SIG"), (25, str "KEY"), (28, str "IPv6 Address"), (29, str "LOC"), (33, str "SRV"),
   (35, str "NAPTR"), (36, str "KX"), (37, str "CERT"), (39, str "DNAME"), (41, str "OPT"), (42, str "APL"), (43, str "DS"),
   (44, str "SSHFP"), (45, str "IPSECKEY"), (46, str "RRSIG"), (47, str "NSEC"), (48, str "DNSKEY"), (49, str "DHCID"),
   (50, str "NSEC3"), (51, str "NSEC3PARAM"), (55, str "HIP"), (64, str "SVCB"), (65, str "HTTPS"), (99, str "SPF"),
   (249, str "TKEY"), (250, str "TSIG"), (251, str "IXFR"), (252, str "AXFR"), (255, str "*"), (32768, str "TA"),
   (32769, str "DLV")]

/-- dnsrelated.c 77-90 `DNSGetTypeName`; `none`: `DNS_TYPENAME_UNKNOWN`. -/
def typeName (t : Nat) : Option (List Byte) := (typeList.find? (·.1 == t)).map (·.2)

/-- dnsparser.c 143: the format of a line. -/
def format : List Byte := str "   %t: %v\n"

/-- dnsparser.c 527-557 and the like: the format is copied to the buffer, then `%t` and `%v` are replaced.  The value is computed
between the two. -/
def fill (cap : Nat) (left : Int) (pre : List Byte) (value : Res) : Res :=
  if format.length + 1 > cap then .error .overrun
  else
    match replaceChecked cap left format (str "%t") pre with
    | none => .error .overrun
    | some none => .ok none
    | some (some s) =>
      match value with
      | .error e => .error e
      | .ok none => .ok none
      | .ok (some v) =>
        match replaceChecked cap left s (str "%v") v with
        | none => .error .overrun
        | some none => .ok none
        | some (some s) => .ok (some s)

/-- dnsparser.c 517-520 and the like: the format must fit, then as `fill`. -/
def fillChecked (cap : Nat) (left : Int) (pre : List Byte) (value : Res) : Res :=
  if (format.length : Int) + 1 > left then .ok none else fill cap left pre value

/-- dnsparser.c 539-541 `Parse16Uint`, the value. -/
def value16 (b : List Byte) (p : Nat) : Res :=
  match u16At b p with
  | none => .error .outside
  | some n => .ok (some (IpText.dec n))

/-- dnsparser.c 606-608 `Parse32Uint`, the value. -/
def value32 (b : List Byte) (p : Nat) : Res :=
  match u32At b p with
  | none => .error .outside
  | some n => .ok (some (IpText.dec n))

/-- dnsparser.c 673 `ParseIPv4`, the value: four bytes, whatever the length of the data. -/
def value4 (b : List Byte) (p : Nat) : Res :=
  match (b.drop p).take 4 with
  | [w, x, y, z] => .ok (some (IpText.v4ToAsc w x y z))
  | _ => .error .outside

/-- dnsparser.c 737 `ParseIPv6`, the value. -/
def value6 (b : List Byte) (p : Nat) : Res :=
  if b.length < p + 16 then .error .outside else .ok (some (IpText.v6ToAsc ((b.drop p).take 16)))

/-- dnsparser.c 796-807 `UnpackLabeledName`: the name at `p`, decoded into a buffer of 254 bytes, and its length in place. -/
def nameAt (b : List Byte) (len fuel p : Nat) : Except Fault (Option (List Byte × Nat)) :=
  match (getHostName (memAt b) len p (some 254) fuel).out with
  | .noFuel => .error .endless
  | .oob => .error .overrun
  | .fail _ => .ok none
  | .ok n buf => .ok (some (cstr buf, n))

def valueName (b : List Byte) (len fuel p : Nat) : Res :=
  match nameAt b len fuel p with
  | .error e => .error e
  | .ok r => .ok (r.map (·.1))

/-- dnsparser.c 988-1018 `DNSRRGetString` for the data at `row`, into a buffer of `cap` bytes whose length is given as `dl`:
`off` is how far `DataItr` is, `acc` what was written. -/
def rrString (b : List Byte) (row dl cap off : Nat) (acc : List Byte) : Res :=
  if off < dl then
    match b[row + off]? with
    | none => .error .outside
    | some n =>
      if (n.toNat : Int) ≥ (dl : Int) - acc.length then .ok none
      else if b.length < row + off + 1 + n.toNat then .error .outside
      else if cap < acc.length + n.toNat then .error .overrun
      else rrString b row dl cap (off + 1 + n.toNat) (acc ++ (b.drop (row + off + 1)).take n.toNat)
  else if cap < acc.length + 1 then .error .overrun
  else .ok (some (cstr acc))
termination_by dl - off

/-- dnsparser.c 1049-1060 `ParseTxt`, the value: into 256 bytes, or as many as the data have. -/
def valueTxt (b : List Byte) (row dl : Nat) : Res :=
  rrString b row dl (if dl > 256 then dl else 256) 0 []

/-- dnsparser.c 1099-1106: the label of a type in `ParseRaw`. -/
def rawLabel (t : Nat) : List Byte :=
  match typeName t with
  | some s => s
  | none => str "UNKNOWN (" ++ (IpText.dec t ++ str ")")

/-- dnsparser.c 1118-1125: the value shown by `ParseRaw`. -/
def rawValue (t dl : Nat) : List Byte :=
  if t ≠ 41 then IpText.dec dl ++ str " bytes" else str "Pseudo-RR"

/-- The functions a field can be parsed with, dnsparser.c 943-951 and 972-975. -/
inductive Kind where
  | name | int16 | int32
deriving DecidableEq, Repr

/-- dnsparser.c 942-951 `ParseSOA`. -/
def soaFields : List (List Byte × Kind) :=
  [(str "(SOA)primary name server", .name), (str "(SOA)responsible mail addr", .name), (str "(SOA)serial", .int32),
   (str "(SOA)refresh", .int32), (str "(SOA)retry", .int32), (str "(SOA)expire", .int32), (str "(SOA)default TTL", .int32)]

/-- dnsparser.c 972-976 `ParseMailEx`. -/
def mxFields : List (List Byte × Kind) := [(str "preference", .int16), (str "mail exchanger", .name)]

/-- The value of a field at `p`. -/
def fieldValue (b : List Byte) (len fuel p : Nat) : Kind → Res
  | .name => valueName b len fuel p
  | .int16 => value16 b p
  | .int32 => value32 b p

/-- By how much a field's function lowers `*DataLength` (dnsparser.c 556, 623, 819). -/
def fieldSize (b : List Byte) (len fuel p : Nat) : Kind → Nat
  | .name => match nameAt b len fuel p with | .ok (some (_, n)) => n | _ => 0
  | .int16 => 2
  | .int32 => 4

/-- dnsparser.c 893-932 `ParseData`: `p` is `DataItr`, `data` is `LeftDataLength`, `cap` and `left` are what is left of the buffer,
`acc` is what was written. -/
def fieldsLoop (b : List Byte) (len fuel : Nat) (cap : Nat) (left : Int) (p : Nat) (data : Int) (acc : List Byte) :
    List (List Byte × Kind) → Res
  | [] => .ok (some acc)
  | (pre, k) :: fs =>
    if data > 0 then
      match fillChecked cap left pre (fieldValue b len fuel p k) with
      | .error e => .error e
      | .ok none => .ok none
      | .ok (some t) =>
        if t = [] then .ok none
        else
          fieldsLoop b len fuel (cap - t.length) (left - t.length) (p + fieldSize b len fuel p k)
            (data - fieldSize b len fuel p k) (acc ++ t) fs
    else .ok (some acc)

/-- dnsparser.c 1146-1199 `TextifyData` for a record whose data, `dl` bytes, start at `row`. -/
def textify (b : List Byte) (len fuel : Nat) (cap : Nat) (left : Int) (type klass row dl : Nat) : Res :=
  if type ≠ 41 ∧ klass ≠ 1 then .ok none
  else if type = 1 then fillChecked cap left (str "IPv4 Address") (value4 b row)
  else if type = 28 then fillChecked cap left (str "IPv6 Address") (value6 b row)
  else if type = 5 ∨ type = 12 ∨ type = 2 then fillChecked cap left (rawLabel type) (valueName b len fuel row)
  else if type = 16 then fillChecked cap left (str "TXT") (valueTxt b row dl)
  else if type = 15 then fieldsLoop b len fuel cap left row dl [] mxFields
  else if type = 6 then fieldsLoop b len fuel cap left row dl [] soaFields
  else fill cap left (rawLabel type) (.ok (some (rawValue type dl)))

/-- The conversion `%d`. -/
def decInt (n : Int) : List Byte := if n < 0 then 45 :: IpText.dec n.natAbs else IpText.dec n.natAbs

/-- dnsparser.c 145: the line that says how many records are not shown. -/
def more (n : Int) : List Byte := str "   And " ++ (decInt n ++ str " More ...\n")

/-- dnsparser.c 138-156: the loop, at most `n` rounds.  `acc` is the text before `BufferItr`, `left` is `BufferLeft`, `ana` is
`ANACount`; `0` rounds are never reached, see `showLoop_fuel` (Lemmas/Show). -/
def showLoop (b : List Byte) (len fuel cap : Nat) (c : Counts) : Nat → Itr → List Byte → Int → Int → Except Fault (List Byte)
  | 0, _, _, _, _ => .error .endless
  | n + 1, it, acc, left, ana =>
    match next b len c it with
    | none => .error .outside
    | some (_, none) => .ok acc
    | some (it', some p) =>
      if it'.purpose = .question ∨ it'.purpose = .unknown then .ok acc
      else
        match rowData b p with
        | none => .error .outside
        | some row =>
          match textify b len fuel (cap - acc.length) left it'.type it'.klass row it'.dataLen with
          | .error e => .error e
          | .ok r =>
            match r with
            | some (x :: t) => showLoop b len fuel cap c n it' (acc ++ x :: t) (left - (t.length + 1)) (ana - 1)
            | _ =>
              if cap < acc.length + (more ana).length + 1 then .error .overrun
              else .ok (acc ++ more ana)

/-- dnsparser.c 104-159 `GetAllAnswers` into an empty text (logs.c 236, 258): the text left in the buffer.  `fuel` bounds the
decoding of names. -/
def getAll (cap size : Nat) (b : List Byte) (len fuel : Nat) : Except Fault (List Byte) :=
  if (size : Int) - 22 ≤ 0 then .ok []
  else if initOk len = false then .ok []
  else
    match counts b with
    | none => .error .outside
    | some c =>
      let ana : Int := c.an + c.ns + c.ar
      let first := if ana = 0 then str "   Nothing.\n" else []
      if cap < first.length + 1 then .error .overrun
      else
        match gotoAnswers b len c Itr.init with
        | none => .error .outside
        | some it =>
          match showLoop b len fuel cap c (c.all + 2) it [] ((size : Int) - 22) ana with
          | .error e => .error e
          | .ok [] => .ok first
          | .ok t => .ok t

end Verif.Show
