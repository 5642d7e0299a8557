import Verif.Model.CBase
/-! Model of the domain-name encoder and decoders: `DNSLabelizedName` (dnsgenerator.c),
`DNSGetHostName`, `DNSJumpOverName`, `DNSCopyLable` (dnsparser.c).

`mem i` is the byte at offset `i` from the start of the DNS message (`DNSBody`); the memory behind the
message is part of `mem`, so that reads past the end are visible. -/

namespace Verif.Name

/-- How `DNSGetHostName` ends: `ok n b` = returns `n ≥ 0` having written `b` to the start of the
buffer; `fail b` = returns -1 with `b` written; `oob` = a write outside the buffer; `noFuel` = the loop
did not end within the given number of iterations. -/
inductive Outcome where
  | ok (n : Nat) (buf : List Byte)
  | fail (buf : List Byte)
  | oob
  | noFuel
deriving DecidableEq, Repr

/-- The outcome together with the offsets read, in order. -/
structure Result where
  out : Outcome
  reads : List Nat
deriving DecidableEq, Repr

def Result.after (l : List Nat) (r : Result) : Result := { r with reads := l ++ r.reads }

/-- Consecutive offsets `a, a+1, …, a+n-1`. -/
def span (a n : Nat) : List Nat := (List.range n).map (a + ·)

/-- dnsparser.h 46 `DNSIsLabelPointerStart`. -/
def isPtr (c : Byte) : Bool := c &&& 0xC0 == 0xC0

/-- dnsparser.h 48 `DNSLabelGetPointer`. -/
def ptrTo (mem : Nat → Byte) (pos : Nat) : Nat := ((mem pos).toNat - 192) * 256 + (mem (pos + 1)).toNat

/-- A write of `bytes` at the write position of a buffer of `cap` bytes of which `buf` is written. -/
def put (cap : Nat) (buf bytes : List Byte) : Option (List Byte) :=
  if buf.length + bytes.length ≤ cap then some (buf ++ bytes) else none

/-- dnsparser.c 52-60: terminate what was written (over the last dot). -/
def terminate (cap : Nat) (buf : List Byte) : Outcome :=
  match buf with
  | [] => if 0 < cap then (match put cap [] [0] with | some b => .fail b | none => .oob) else .fail []
  | _ :: _ => .fail (buf.dropLast ++ [0])

/-- dnsparser.c 81-101: the end of the name. -/
def finish (cap : Option Nat) (buf : List Byte) (n : Nat) (red : Bool) : Outcome :=
  let n' := if red then n else n + 1
  match cap with
  | none => .ok n' []
  | some N =>
    match buf with
    | [] => if 0 < N then (match put N [] [0] with | some b => .ok n' b | none => .oob) else .fail []
    | _ :: _ => .ok n' (buf.dropLast ++ [0])

/-- dnsparser.c 17-79: the loop of `DNSGetHostName`.  `haveBody` is `DNSBody != NULL`, `len` is
`DNSBodyLength`, `cap` is `BufferLength` (`none`: `buffer == NULL`), `pos` is `NameItr`, `buf` the
bytes written so far (`BufferItr - buffer = buf.length`), `n` is `LabelsLength`, `red` is
`Redirected`. -/
def getLoop (mem : Nat → Byte) (haveBody : Bool) (len : Nat) (cap : Option Nat) :
    Nat → Nat → List Byte → Nat → Bool → Result
  | 0, _, _, _, _ => ⟨.noFuel, []⟩
  | fuel + 1, pos, buf, n, red =>
    let c := mem pos
    if c = 0 then ⟨finish cap buf n red, [pos]⟩
    else if isPtr c then
      let n' := if red then n else n + 2
      match cap with
      | none => ⟨finish cap buf n' true, [pos]⟩
      | some _ =>
        if ptrTo mem pos > len then ⟨.fail buf, [pos, pos + 1]⟩
        else (getLoop mem haveBody len cap fuel (ptrTo mem pos) buf n' true).after [pos, pos + 1]
    else
      let L := c.toNat
      if haveBody ∧ pos + L > len then ⟨.fail buf, [pos]⟩
      else
        let n' := if red then n else n + (L + 1)
        match cap with
        | none => (getLoop mem haveBody len cap fuel (pos + 1 + L) buf n' red).after [pos]
        | some N =>
          if buf.length + L + 1 ≤ N then
            match put N buf ((span (pos + 1) L).map mem ++ [46]) with
            | none => ⟨.oob, []⟩
            | some buf' =>
              (getLoop mem haveBody len cap fuel (pos + 1 + L) buf' n' red).after
                (pos :: span (pos + 1) L)
          else ⟨terminate N buf, [pos]⟩

/-- dnsparser.c 11-102 `DNSGetHostName(DNSBody, len, DNSBody + pos, buffer, N)`. -/
def getHostName (mem : Nat → Byte) (len pos : Nat) (cap : Option Nat) (fuel : Nat) : Result :=
  getLoop mem true len cap fuel pos [] 0 false

/-- dnsparser.c 5-8 `DNSJumpOverName`: no body, no buffer; the length of the name in place. -/
def jumpOver (mem : Nat → Byte) (pos : Nat) (fuel : Nat) : Result :=
  getLoop mem false 2147483647 none fuel pos [] 0 false

/-- dnsgenerator.c 18-28: the loop of `DNSLabelizedName`.  `done` = bytes before the current label's
length byte, `cnt` = that byte (`unsigned char`, wraps), `cur` = the label so far, last argument = the
characters not yet scanned. -/
def labelLoop (done : List Byte) (cnt : Byte) (cur : List Byte) : List Byte → List Byte
  | [] => done ++ cnt :: cur ++ [0]
  | c :: rest =>
    if c ≠ 46 then labelLoop done (cnt + 1) (cur ++ [c]) rest
    else labelLoop (done ++ cnt :: cur) 0 [] rest

/-- dnsgenerator.c 7-31 `DNSLabelizedName` (with the space check of its callers, see
`Verif.Model.Generator`): the wire form of a text. -/
def labelize (s : List Byte) : List Byte :=
  match s with
  | [] => [0]
  | _ :: _ => labelLoop [] 0 [] s

/-- dnsgenerator.c 144 `LABEL_LENGTH`. -/
def labelLength (s : List Byte) : Nat := if s = [] then 1 else s.length + 2

/-- dnsparser.c 162-190 `DNSCopyLable`: copies bytes until a zero byte, following pointers at any
byte of value 192 or more. -/
def copyLabel (mem : Nat → Byte) : Nat → Nat → Option (List Byte)
  | 0, _ => none
  | fuel + 1, pos =>
    if isPtr (mem pos) then copyLabel mem fuel (ptrTo mem pos)
    else if mem pos = 0 then some [0]
    else (copyLabel mem fuel (pos + 1)).map (mem pos :: ·)

end Verif.Name
