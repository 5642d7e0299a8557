import Verif.Model.CBase
/-! Model of the conversions between addresses and text: `IPv4AddressToNum`, `IPv4AddressToAsc`,
`IPv6AddressToNum`, `IPv6AddressToAsc`, `GetAddressFamily` (utils.c 443-645).

The C library's `sscanf` conversions `%d` and `%x` are modelled after C11 7.21.6.2 (leading white
space, sign, `0x` prefix, digits); a value that does not fit the destination is undefined there and
is a separate outcome here. -/

namespace Verif.IpText

/-- `isspace` in the C locale. -/
def isSpace (c : Byte) : Bool := c == 32 || (9 ≤ c && c ≤ 13)

/-- The value of a decimal digit. -/
def decVal (c : Byte) : Option Nat := if 48 ≤ c ∧ c ≤ 57 then some (c.toNat - 48) else none

/-- The value of a hexadecimal digit. -/
def hexVal (c : Byte) : Option Nat :=
  if 48 ≤ c ∧ c ≤ 57 then some (c.toNat - 48)
  else if 97 ≤ c ∧ c ≤ 102 then some (c.toNat - 87)
  else if 65 ≤ c ∧ c ≤ 70 then some (c.toNat - 55)
  else none

/-- The longest prefix of digits (as values) and the rest. -/
def spanDigits (f : Byte → Option Nat) : List Byte → List Nat × List Byte
  | [] => ([], [])
  | c :: r =>
    match f c with
    | none => ([], c :: r)
    | some d => (d :: (spanDigits f r).1, (spanDigits f r).2)

def digitsVal (base : Nat) (ds : List Nat) : Nat := ds.foldl (fun a d => a * base + d) 0

/-- A `sscanf` conversion: matching failure, undefined behaviour, or a value and the rest. -/
inductive Scan where
  | fail
  | undef
  | ok (v : Int) (rest : List Byte)
deriving DecidableEq, Repr

def skipSpace (s : List Byte) : List Byte := s.dropWhile isSpace

/-- The optional sign of a number. -/
def sign : List Byte → Bool × List Byte
  | c :: r => if c = 45 then (true, r) else if c = 43 then (false, r) else (false, c :: r)
  | [] => (false, [])

/-- The conversion `%d` into an `int`. -/
def scanDec (s : List Byte) : Scan :=
  let g := sign (skipSpace s)
  let d := spanDigits decVal g.2
  if d.1 = [] then .fail
  else
    let v : Int := if g.1 then -(digitsVal 10 d.1 : Int) else digitsVal 10 d.1
    if -2147483648 ≤ v ∧ v ≤ 2147483647 then .ok v d.2 else .undef

/-- The optional prefix `0x`. -/
def hexPrefix : List Byte → List Byte
  | 48 :: c :: r => if c = 120 ∨ c = 88 then r else 48 :: c :: r
  | s => s

/-- The conversion `%x` into an `unsigned int` (a negated value is reduced modulo 2^32, as `strtoul`
does). -/
def scanHex (s : List Byte) : Scan :=
  let g := sign (skipSpace s)
  let d := spanDigits hexVal (hexPrefix g.2)
  if d.1 = [] then .fail
  else if digitsVal 16 d.1 < 4294967296 then
    .ok (if g.1 then (-(digitsVal 16 d.1 : Int)) % 4294967296 else digitsVal 16 d.1) d.2
  else .undef

/-- `sscanf` with `n` conversions separated by the literal character `sep`: the values converted
before the first failure, `none` if undefined. -/
def scanList (conv : List Byte → Scan) (sep : Byte) : Nat → List Byte → Option (List Int)
  | 0, _ => some []
  | n + 1, s =>
    match conv s with
    | .fail => some []
    | .undef => none
    | .ok v rest =>
      match rest with
      | [] => some [v]
      | c :: r => if n = 0 then some [v] else if c = sep then (scanList conv sep n r).map (v :: ·) else some [v]

/-- What a conversion function does: undefined behaviour (out-of-bounds write, use of a value never
assigned, overflow in `sscanf`), or a return value and the bytes left in the buffer (`none`: not
determined, uninitialised values were stored). -/
inductive Out where
  | undef
  | ret (n : Int) (buf : Option (List Byte))
deriving DecidableEq, Repr

/-- Conversion of an `int` to `unsigned char`. -/
def toByte (v : Int) : Byte := UInt8.ofNat (v % 256).toNat

/-- utils.c 515-531 `IPv4AddressToNum`: the return value is that of `sscanf`. -/
def v4ToNum (s : List Byte) : Out :=
  match scanList scanDec 46 4 s with
  | none => .undef
  | some vs =>
    if vs.length = 4 then .ret 4 (some (vs.map toByte))
    else .ret (if vs = [] ∧ skipSpace s = [] then -1 else vs.length) none

/-- The text of `%u`. -/
def dec (n : Nat) : List Byte :=
  if n < 10 then [UInt8.ofNat (48 + n)] else dec (n / 10) ++ [UInt8.ofNat (48 + n % 10)]
termination_by n

/-- utils.c 620-631 `IPv4AddressToAsc`: the text written. -/
def v4ToAsc (a b c d : Byte) : List Byte :=
  dec a.toNat ++ 46 :: (dec b.toNat ++ 46 :: (dec c.toNat ++ 46 :: dec d.toNat))

/-- The address families `GetAddressFamily` distinguishes. -/
inductive Family where
  | unspec
  | inet
  | inet6
deriving DecidableEq, Repr

/-- utils.c 533-548 `GetAddressFamily` (`none`: undefined). -/
def family (s : List Byte) : Option Family :=
  if (91 : Byte) ∈ s then some .inet6
  else
    match v4ToNum s with
    | .undef => none
    | .ret n _ => some (if n = 4 then .inet else .unspec)

/-- The 16-bit groups of an address, `GET_16_BIT_U_INT` at even offsets. -/
def groups : List Byte → List Nat
  | a :: b :: r => (a.toNat * 256 + b.toNat) :: groups r
  | _ => []

/-- `SET_16_BIT_U_INT` of each group. -/
def ungroups : List Nat → List Byte
  | [] => []
  | v :: r => UInt8.ofNat (v / 256) :: UInt8.ofNat v :: ungroups r

/-- The first occurrence test `strstr(asc, "::") != NULL`. -/
def hasDouble : List Byte → Bool
  | a :: b :: r => (a == 58 && b == 58) || hasDouble (b :: r)
  | _ => false

/-- utils.c 474-491: the groups before `::`.  `itr` is the text from `itr` on, `start` tells whether
`asc` still equals `itr`, `buf` are the groups written so far; the last argument is the text from
`asc` on.  `Sum.inl`: the function ends here; `Sum.inr`: the groups written. -/
def front (buf : List Nat) (itr : List Byte) (start : Bool) : List Byte → Sum Out (List Nat)
  | [] => .inl (.ret 0 (some (ungroups (buf ++ List.replicate (8 - buf.length) 0))))
  | c :: r =>
    if c = 58 then
      if start then .inr buf
      else
        match scanHex itr with
        | .ok v _ =>
          if buf.length < 8 then front (buf ++ [(v % 65536).toNat]) r true r else .inl .undef
        | _ => .inl .undef
    else front buf itr false r

/-- utils.c 492-510: the groups after `::`, from the last one backwards.  `buf` are the eight groups,
`k` of which have been written from the end; `tail` is the text behind `itr`, the last argument the
text up to and including `itr`, reversed. -/
def back (buf : List Nat) (k : Nat) (tail : List Byte) : List Byte → Out
  | [] => .undef
  | c :: r =>
    if c = 58 then
      if tail = [] then .ret 16 (some (ungroups buf))
      else
        match scanHex tail with
        | .ok v _ =>
          if k < 8 then
            let buf' := buf.set (7 - k) (v % 65536).toNat
            match r with
            | [] => .undef
            | c' :: _ =>
              if c' = 58 then .ret 16 (some (ungroups buf')) else back buf' (k + 1) (c :: tail) r
          else .undef
        | _ => .undef
    else back buf k (c :: tail) r

/-- utils.c 443-513 `IPv6AddressToNum`. -/
def v6ToNum (s : List Byte) : Out :=
  let asc := skipSpace s
  if hasDouble asc = false then
    match scanList scanHex 58 8 asc with
    | none => .undef
    | some vs =>
      if vs.length = 8 then .ret 16 (some (ungroups (vs.map fun v => (v % 65536).toNat)))
      else .ret 16 none
  else if asc[2]?.all isSpace then
    .ret 0 (some (List.replicate 16 0))
  else
    match front [] asc true asc with
    | .inl o => o
    | .inr buf => back (buf ++ List.replicate (8 - buf.length) 0) 0 [] asc.reverse

/-- The text of `%x`. -/
def hexDigit (n : Nat) : Byte := if n < 10 then UInt8.ofNat (48 + n) else UInt8.ofNat (87 + n)

def hex (n : Nat) : List Byte :=
  if n < 16 then [hexDigit n] else hex (n / 16) ++ [hexDigit (n % 16)]
termination_by n

/-- utils.c 561-579: the longest run of zero groups.  `i` is the group's index (half the byte offset),
`z`, `n` the best run, `z2`, `n2` the current one (lengths in groups). -/
def runLoop (i : Nat) (z : Option Nat) (n : Nat) (z2 : Option Nat) (n2 : Nat) :
    List Nat → Option Nat × Nat
  | [] => (z, n)
  | v :: r =>
    if v = 0 then
      let s := match z2 with | none => i | some s => s
      let m := match z2 with | none => 1 | some _ => n2 + 1
      if m > n then runLoop (i + 1) (some s) m (some s) m r
      else runLoop (i + 1) z n (some s) m r
    else runLoop (i + 1) z n none n2 r

/-- utils.c 600-609: how far the write position moves behind a printed group. -/
def adv (v : Nat) : Nat := if v = 0 then 1 else go v
where
  go (v : Nat) : Nat := if v = 0 then 0 else 1 + go (v / 16)
  termination_by v

/-- utils.c 581-615: the text, `k` groups being skipped because they are in the compressed run. -/
def printLoop (z : Option Nat) (n : Nat) (i k : Nat) : List Nat → List Byte
  | [] => []
  | v :: r =>
    match k with
    | k' + 1 => printLoop z n (i + 1) k' r
    | 0 =>
      if z = some i ∧ n > 1 then
        (if i = 0 then [58] else []) ++ 58 :: printLoop z n (i + 1) (n - 1) r
      else (hex v).take (adv v) ++ (if i < 7 then [58] else []) ++ printLoop z n (i + 1) 0 r

/-- utils.c 550-618 `IPv6AddressToAsc`: the text written, for the 16 bytes of an address. -/
def v6ToAsc (a : List Byte) : List Byte :=
  let g := groups a
  let r := runLoop 0 none 0 none 0 g
  printLoop r.1 r.2 0 0 g

end Verif.IpText
