import Verif.Model.Bst
import Verif.Model.IpText
/-! Model of `ipchunk.c`: lists of addresses and address ranges, used to block and to substitute
addresses in responses (`ipmisc.c`). -/

namespace Verif.IpChunk
open IpText

/-- ipchunk.h 9, ipchunk.c 5-7: the `Zone` pointer is NULL, one of two marker strings, or the text
behind `%`. -/
inductive Zone where
  | invalid | v4 | v6 | named (s : List Byte)
deriving DecidableEq, Repr

/-- ipchunk.h 8-11 `IpAddr`: the 16 bytes of `Addr` and the zone. -/
structure Addr where
  bytes : List Byte
  zone : Zone
deriving DecidableEq, Repr

/-- ipchunk.c 16-27 `IpAddr_BitLength`. -/
def Addr.bitLength (a : Addr) : Int :=
  match a.zone with | .invalid => 0 | .v4 => 32 | _ => 128

/-- ipchunk.c 29-32 `IpAddr_Is6`. -/
def Addr.is6 (a : Addr) : Bool :=
  match a.zone with | .invalid | .v4 => false | _ => true

/-- ipchunk.c 34-37 `IpAddr_HasZone`. -/
def Addr.hasZone (a : Addr) : Bool :=
  match a.zone with | .named _ => true | _ => false

/-- ipchunk.c 44-48 `IpAddr_SetPrefix4`: the first 12 bytes of an IPv4 address. -/
def prefix4 : List Byte := List.replicate 10 0 ++ [255, 255]

/-- ipchunk.c 50-55 `IpAddr_From4`. -/
def from4 (a : List Byte) : Addr := ⟨prefix4 ++ a, .v4⟩

/-- ipchunk.c 57-61 `IpAddr_From6`. -/
def from6 (a : List Byte) : Addr := ⟨a, .v6⟩

/-- Outcomes of the parsing functions. -/
inductive Parsed (α : Type) where
  | undef
  | reject
  | ok (a : α)
deriving DecidableEq, Repr

/-- ipchunk.c 63-92 `IpAddr_Parse`: the first `.` or `:` decides.  An IPv6 text whose conversion
leaves the bytes undetermined (`IpText.Out`) is undefined here. -/
def parseAddr (s : List Byte) : Parsed Addr :=
  match s.find? (fun c => c == 46 || c == 58) with
  | none => .reject
  | some c =>
    if c = 46 then
      match v4ToNum s with
      | .undef => .undef
      | .ret n buf =>
        if n = 4 then (match buf with | some a => .ok ⟨prefix4 ++ a, .v4⟩ | none => .undef) else .reject
    else
      match v6ToNum s with
      | .undef => .undef
      | .ret n buf =>
        if n = 16 then
          match buf with
          | some a =>
            .ok ⟨a, match (s.dropWhile (· != 58)).dropWhile (· != 37) with
              | [] => .v6
              | _ :: z => .named z⟩
          | none => .undef
        else .reject

/-- ipchunk.h 18-21 `IpSet`. -/
structure Set where
  ip : Addr
  bits : Int
deriving DecidableEq, Repr

/-- ipchunk.c 94-97 `IpSet_IsSingleIp`. -/
def Set.single (s : Set) : Bool := s.bits ≠ 0 ∧ s.bits = s.ip.bitLength

/-- ipchunk.c 128-135: the loop clearing bits of the first bytes. -/
def keepHead : Nat → List Byte → List Byte
  | _, [] => []
  | l, b :: r =>
    if l = 0 then b :: r
    else if 8 ≤ l then b :: keepHead (l - 8) r
    else (b &&& ~~~(255 >>> UInt8.ofNat l)) :: r

/-- C's `atoi`: 0 without digits; a value outside `int` is undefined. -/
def atoi (p : List Byte) : Option Int :=
  match scanDec p with
  | .fail => some 0
  | .undef => none
  | .ok v _ => some v

/-- ipchunk.c 99-142 `IpSet_Parse`; `p` is the text behind the `/`, empty if there is none. -/
def parseSet (s p : List Byte) : Parsed Set :=
  match parseAddr s with
  | .undef => .undef
  | .reject => .reject
  | .ok a =>
    if p = [] then .ok ⟨a, a.bitLength⟩
    else
      match atoi p with
      | none => .undef
      | some v =>
        let n : Int := if v < 0 then -1 else if v > a.bitLength then a.bitLength else v
        let l : Int := if a.is6 then n + 10 else n
        .ok ⟨⟨if l < 16 then keepHead l.toNat a.bytes else a.bytes, if a.is6 then .v6 else a.zone⟩, n⟩

/-- ipchunk.h 35-39 `IpElement`. -/
structure Elem where
  set : Set
  type : Nat
  data : Option (List Byte)
deriving DecidableEq, Repr

/-- C's `memcmp` on areas of the same size. -/
def memcmp : List Byte → List Byte → Int
  | a :: x, b :: y => if a = b then memcmp x y else (a.toNat : Int) - b.toNat
  | _, _ => 0

/-- ipchunk.c 190: the four bytes of `htonl(~(~0U >> n))`. -/
def maskBytes (n : Nat) : List Byte :=
  [UInt8.ofNat ((4294967295 - 4294967295 / 2 ^ n) / 16777216), UInt8.ofNat ((4294967295 - 4294967295 / 2 ^ n) / 65536),
   UInt8.ofNat ((4294967295 - 4294967295 / 2 ^ n) / 256), UInt8.ofNat (4294967295 - 4294967295 / 2 ^ n)]

/-- ipchunk.c 177-195: comparison of the bits under the prefix, with what is left of the local
variable `prefixBitsElm`.  The first argument bounds the number of words (four are enough). -/
def prefixCmp : Nat → List Byte → List Byte → Int → Int × Int
  | 0, _, _, p => (0, p)
  | f + 1, x, y, p =>
    if 32 ≤ p then
      if memcmp (x.take 4) (y.take 4) ≠ 0 then (memcmp (x.take 4) (y.take 4), p)
      else prefixCmp f (x.drop 4) (y.drop 4) (p - 32)
    else if 0 < p then
      (memcmp (List.zipWith (· &&& ·) (x.take 4) (maskBytes p.toNat))
        (List.zipWith (· &&& ·) (y.take 4) (maskBytes p.toNat)), p)
    else (0, p)

/-- ipchunk.c 145-219 `Contain`, the comparison function of both trees. -/
def contain (new elm : Elem) : Int :=
  if elm.set.ip.zone = .invalid then -1
  else if new.set.ip.bitLength ≠ elm.set.ip.bitLength then new.set.ip.bitLength - elm.set.ip.bitLength
  else
    let off := if elm.set.ip.bitLength = 32 then 12 else 0
    let r := prefixCmp 5 (new.set.ip.bytes.drop off) (elm.set.ip.bytes.drop off) elm.set.bits
    if r.1 = 0 then
      if new.set.bits < r.2 then 1
      else
        match elm.set.ip.zone with
        | .named z =>
          match new.set.ip.zone with
          | .named y => memcmp (y ++ [0]) (z ++ [0])
          | _ => 1
        | _ => 0
    else r.1

/-- ipchunk.h 41-46 `IpChunk`. -/
structure Chunk where
  addrs : Bst.State Elem
  cidrs : Bst.State Elem

/-- ipchunk.c 230-262 `IpChunk_Init`. -/
def Chunk.init : Chunk := ⟨.init, .init⟩

/-- ipchunk.c 264-317 `IpChunk_Add`: whether the entry was accepted, and the new lists; `none` is
undefined behaviour.  Simplification: allocation succeeds. -/
def add (c : Chunk) (ip : List Byte) (type : Nat) (data : Option (List Byte)) : Option (Bool × Chunk) :=
  match parseSet (ip.takeWhile (· != 47)) ((ip.dropWhile (· != 47)).drop 1) with
  | .undef => none
  | .reject => some (false, c)
  | .ok s =>
    if s.single then some (true, { c with addrs := (c.addrs.add contain ⟨s, type, data⟩).2 })
    else some (true, { c with cidrs := (c.cidrs.add contain ⟨s, type, data⟩).2 })

/-- ipchunk.c 319-371 `IpChunk_Find`: the type and data of the entry found. -/
def find (c : Chunk) (ip : List Byte) : Option (Nat × Option (List Byte)) :=
  let key : Option Set :=
    if ip.length = 4 then some ⟨from4 ip, 32⟩
    else if ip.length = 16 then some ⟨from6 ip, 128⟩
    else none
  match key with
  | none => none
  | some k =>
    match c.addrs.search contain ⟨k, 0, none⟩ with
    | some e => some (e.2.type, e.2.data)
    | none => (c.cidrs.search contain ⟨k, 0, none⟩).map fun e => (e.2.type, e.2.data)

/-- Adding a list of entries, as `IpMiscMapping_Load` (ipmisc.c 238-320) does, ignoring the return
values. -/
def build : Chunk → List (List Byte × Nat × Option (List Byte)) → Option Chunk
  | c, [] => some c
  | c, e :: es =>
    match add c e.1 e.2.1 e.2.2 with
    | none => none
    | some (_, c') => build c' es

end Verif.IpChunk
