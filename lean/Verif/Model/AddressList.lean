import Verif.Model.Arr
import Verif.Model.IpText
/-! Model of `addresslist.c`: lists of server addresses.  `inet_addr` of the C library is a parameter.
Memory for growing arrays is always found. -/

namespace Verif.AddressList
open IpText

/-- common.h `Address_Type`; `addr` is `none` if uninitialised values were stored in it. -/
structure Sock where
  family : Family
  addr : Option (List Byte)
  port : Nat
deriving DecidableEq, Repr

/-- The result of reading an address: undefined behaviour, `AF_UNSPEC`, or the address. -/
inductive Conv where
  | undef
  | refused
  | ok (s : Sock)
deriving DecidableEq, Repr

/-- The conversion `%hu` of `sscanf`; values that do not fit an `unsigned short` are undefined. -/
def scanPort (s : List Byte) : Scan :=
  let g := sign (skipSpace s)
  let d := spanDigits decVal g.2
  if d.1 = [] then .fail
  else
    let v : Int := if g.1 then -(digitsVal 10 d.1 : Int) else digitsVal 10 d.1
    if 0 ≤ v ∧ v ≤ 65535 then .ok v d.2 else .undef

/-- addresslist.c 70-76, 98-103: the port behind the first colon of `s`.  `none`: undefined, or `Port`
is used without having been assigned. -/
def portOf (s : List Byte) (dflt : Nat) : Option Nat :=
  match s.dropWhile (· != 58) with
  | [] => some dflt
  | _ :: r =>
    match scanPort r with
    | .ok v _ => some v.toNat
    | _ => none

/-- addresslist.c 41-115 `AddressList_ConvertFromString`. -/
def convert (inet : List Byte → List Byte) (s : List Byte) (dflt : Nat) : Conv :=
  match family s with
  | none => .undef
  | some .unspec => .refused
  | some .inet6 =>
    match s.dropWhile (· != 93) with
    | [] => .refused
    | rest =>
      match portOf rest dflt, v6ToNum (((s.drop 1).takeWhile (· != 93)).take 45) with
      | some p, .ret _ buf => .ok ⟨.inet6, buf, p⟩
      | _, _ => .undef
  | some .inet =>
    match portOf s dflt with
    | none => .undef
    | some p => .ok ⟨.inet, some (inet ((s.takeWhile (· != 58)).take 15)), p⟩

/-- addresslist.h 11-22. -/
structure AddrList where
  arr : Arr.Arr Sock
  counter : UInt32
deriving DecidableEq, Repr

/-- addresslist.c 8-22 `AddressList_Init`. -/
def init : AddrList := ⟨Arr.init 8, 0⟩

/-- addresslist.c 25-39 `AddressList_Add`; `none`: write outside the array. -/
def add (a : AddrList) (s : Sock) : Option AddrList :=
  (Arr.pushBack true (some s) a.arr).map fun r => { a with arr := r.1 }

/-- addresslist.c 117-128 `AddressList_Add_From_String`. -/
def addFromString (inet : List Byte → List Byte) (a : AddrList) (s : List Byte) (dflt : Nat) : Option AddrList :=
  match convert inet s dflt with
  | .undef => none
  | .refused => some a
  | .ok x => add a x

/-- addresslist.c 130-138 `AddressList_Advance`. -/
def advance (a : AddrList) : AddrList := { a with counter := a.counter + 1 }

/-- What a call returning an address does: undefined behaviour, NULL, or the address. -/
inductive Got where
  | undef
  | null
  | addr (s : Sock)
deriving DecidableEq, Repr

/-- addresslist.c 140-160 `AddressList_GetOneBySubscript`. -/
def getBySubscript (a : AddrList) (i : Int) : Got :=
  match Arr.getBySubscript a.arr i with
  | none => .null
  | some j =>
    match Arr.read a.arr j with
    | some (some s) => .addr s
    | _ => .undef

/-- addresslist.c 162-165 `AddressList_GetOne`: the remainder by zero is undefined. -/
def getOne (a : AddrList) : Got :=
  if a.arr.used = 0 then .undef else getBySubscript a (a.counter.toNat % a.arr.used : Nat)

/-- addresslist.c 181-193: the loop of `AddressList_GetPtrListOfFamily`, `n` more from subscript `i`.
`none`: undefined. -/
def ofFamilyLoop (a : AddrList) (f : Family) : Nat → Nat → Option (List Sock)
  | 0, _ => some []
  | n + 1, i =>
    match getBySubscript a (i : Int) with
    | .addr s => (ofFamilyLoop a f n (i + 1)).map fun r => if s.family = f then s :: r else r
    | _ => none

/-- addresslist.c 167-196 `AddressList_GetPtrListOfFamily`: the addresses pointed to before the NULL. -/
def ofFamily (a : AddrList) (f : Family) : Option (List Sock) := ofFamilyLoop a f a.arr.used 0

end Verif.AddressList
