import Verif.Model.Name
/-! Model of `DnsSimpleParser` and `DnsSimpleParserIterator` (dnsparser.c 195-475, 1201-1323).

A message lies in a memory area `b : List Byte` (the receive buffer), of which the first `len` bytes
are the message (`RawDns`, `RawDnsLength`).  A read outside `b` is the outcome `none`. -/

namespace Verif.Parser
open Name

/-- dnsparser.h 8 `GET_16_BIT_U_INT`. -/
def u16At (b : List Byte) (i : Nat) : Option Nat :=
  match b[i]?, b[i + 1]? with
  | some x, some y => some (x.toNat * 256 + y.toNat)
  | _, _ => none

/-- dnsparser.h 9 `GET_32_BIT_U_INT`. -/
def u32At (b : List Byte) (i : Nat) : Option Nat :=
  match u16At b i, u16At b (i + 2) with
  | some x, some y => some (x * 65536 + y)
  | _, _ => none

/-- dnsparser.c 5-8 `DNSJumpOverName` as a function of the memory from the name on: the length of the
name in place, `none` when the name runs out of the memory.  (The same loop as `Name.jumpOver`, see
`skip_eq_jumpOver`.) -/
def skip : List Byte → Option Nat
  | [] => none
  | c :: t =>
    if c = 0 then some 1
    else if isPtr c then some 2
    else (skip (t.drop c.toNat)).map (· + (c.toNat + 1))
termination_by l => l.length
decreasing_by simp; omega

/-- The length of the name at offset `p`. -/
def skipAt (b : List Byte) (p : Nat) : Option Nat := skip (b.drop p)

/-- The four counts of the header, dnsparser.h 21-27. -/
structure Counts where
  qd : Nat
  an : Nat
  ns : Nat
  ar : Nat
deriving DecidableEq, Repr

def counts (b : List Byte) : Option Counts :=
  match u16At b 4, u16At b 6, u16At b 8, u16At b 10 with
  | some qd, some an, some ns, some ar => some ⟨qd, an, ns, ar⟩
  | _, _, _, _ => none

/-- dnsparser.c 284-322 `DnsSimpleParser_Init` (not over TCP): at least 12 bytes. -/
def initOk (len : Nat) : Bool := 12 ≤ len

/-- dnsparser.h 179-186 `DnsRecordPurpose`. -/
inductive Purpose where
  | unknown | question | answer | nameServer | additional
deriving DecidableEq, Repr

/-- dnsparser.c 1286-1289. -/
def Counts.all (c : Counts) : Nat := c.qd + c.an + c.ns + c.ar

/-- dnsparser.c 1291. -/
def Counts.qFirst (c : Counts) : Nat := if c.qd = 0 then 0 else 1
/-- dnsparser.c 1294-1296. -/
def Counts.anFirst (c : Counts) : Nat := if c.an = 0 then 0 else c.qFirst + c.qd
/-- dnsparser.c 1299-1303. -/
def Counts.nsFirst (c : Counts) : Nat := if c.ns = 0 then 0 else c.qFirst + c.qd + c.an
/-- dnsparser.c 1306-1311. -/
def Counts.arFirst (c : Counts) : Nat := if c.ar = 0 then 0 else c.qFirst + c.qd + c.an + c.ns

/-- dnsparser.c 331-334 and so on: the section is present and the record lies between its first and
last (`First + Count - 1`, an `int`). -/
def within (first count n : Nat) : Bool := first ≠ 0 ∧ first ≤ n ∧ (n : Int) ≤ (first : Int) + count - 1

/-- dnsparser.c 327-364 `DnsSimpleParserIterator_DeterminePurpose`. -/
def determinePurpose (c : Counts) (n : Nat) : Purpose :=
  if within c.qFirst c.qd n then .question
  else if within c.anFirst c.an n then .answer
  else if within c.nsFirst c.ns n then .nameServer
  else if within c.arFirst c.ar n then .additional
  else .unknown

/-- dnsparser.h 232-266 `DnsSimpleParserIterator`: `pos = none` is `CurrentPosition == NULL`.  The
current-record fields are uninitialised in the code before the first record; nothing reads them then. -/
structure Itr where
  pos : Option Nat
  num : Nat
  purpose : Purpose
  type : Nat
  klass : Nat
  dataLen : Nat
deriving DecidableEq, Repr

/-- dnsparser.c 1268-1323 `DnsSimpleParserIterator_Init`. -/
def Itr.init : Itr := ⟨none, 0, .unknown, 0, 0, 0⟩

/-- dnsparser.c 404-434: the second half of `Next`, at position `p` as record number `n`. -/
def look (b : List Byte) (len : Nat) (c : Counts) (it : Itr) (p n : Nat) :
    Option (Itr × Option Nat) :=
  if n > c.all ∨ p > len then some ({ it with pos := none, num := 0 }, none)
  else
    match skipAt b p with
    | none => none
    | some k =>
      match u16At b (p + k), u16At b (p + k + 2) with
      | some ty, some kl =>
        let pu := determinePurpose c n
        if pu ≠ .unknown ∧ ty ≠ 0 ∧ kl ≠ 0 then
          if pu ≠ .question then
            match u16At b (p + k + 8) with
            | none => none
            | some dl => some (⟨some p, n, pu, ty, kl, dl⟩, some p)
          else some (⟨some p, n, pu, ty, kl, it.dataLen⟩, some p)
        else some (⟨none, 0, pu, ty, kl, it.dataLen⟩, none)
      | _, _ => none

/-- dnsparser.c 366-435 `DnsSimpleParserIterator_Next`: the new iterator and the returned position
(inner `none` = NULL).  `DNSGetHostName` without a body cannot fail, so the test `FullLength <
ExLength` (391) is never true. -/
def next (b : List Byte) (len : Nat) (c : Counts) (it : Itr) : Option (Itr × Option Nat) :=
  match it.pos with
  | none => look b len c it 12 1
  | some p =>
    if it.num < c.all then
      match skipAt b p with
      | none => none
      | some k =>
        let ex := if it.purpose = .question then 4 else 10 + it.dataLen
        look b len c it (p + (k + ex)) (it.num + 1)
    else some ({ it with pos := none, num := 0 }, none)

/-- A loop `while( i.Next(&i) != NULL )`, at most `n` times: the iterator after each successful call. -/
def visits (b : List Byte) (len : Nat) (c : Counts) : Nat → Itr → List Itr
  | 0, _ => []
  | n + 1, it =>
    match next b len c it with
    | some (it', some _) => it' :: visits b len c n it'
    | _ => []

/-- dnsparser.c 437-451 `DnsSimpleParserIterator_GotoAnswers`, the loop, at most `n` times
(`none`: memory left, or `n` was too small). -/
def gotoLoop (b : List Byte) (len : Nat) (c : Counts) : Nat → Itr → Option Itr
  | 0, _ => none
  | n + 1, it =>
    match next b len c it with
    | none => none
    | some (it', none) => some it'
    | some (it', some _) =>
      if (it'.num : Int) = (c.qFirst : Int) + c.qd - 1 then some it' else gotoLoop b len c n it'

/-- dnsparser.c 437-451 `DnsSimpleParserIterator_GotoAnswers`. -/
def gotoAnswers (b : List Byte) (len : Nat) (c : Counts) (it : Itr) : Option Itr :=
  let it0 := { it with pos := none }
  if c.qFirst > 0 then gotoLoop b len c (c.qd + 1) it0 else some it0

/-- dnsparser.c 464-475 `RowData` (for a record that is not a question): where the data start. -/
def rowData (b : List Byte) (p : Nat) : Option Nat := (skipAt b p).map (p + · + 10)

/-- dnsparser.c 1263-1266 `GetTTL`. -/
def getTTL (b : List Byte) (p : Nat) : Option Nat :=
  match skipAt b p with
  | none => none
  | some k => u32At b (p + k + 4)

end Verif.Parser
