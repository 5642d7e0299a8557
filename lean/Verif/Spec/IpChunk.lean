import Verif.Spec.IpText
/-! Address ranges (CIDR notation, RFC 4632 section 3.1, RFC 4291 section 2.3). -/

namespace Verif.IpChunk
open IpText

/-- A range: all addresses of the family that agree with `base` (a number) in the first `bits` bits. -/
structure Range where
  six : Bool
  base : Nat
  bits : Nat
deriving DecidableEq, Repr

/-- The number of bits of an address. -/
def Range.width (r : Range) : Nat := if r.six then 128 else 32

/-- The number the bytes of an address stand for, most significant first. -/
def number (a : List Byte) : Nat := a.foldl (fun n b => n * 256 + b.toNat) 0

/-- The address with bytes `a` lies in the range. -/
def Covers (r : Range) (a : List Byte) : Prop :=
  8 * a.length = r.width ∧ number a / 2 ^ (r.width - r.bits) = r.base / 2 ^ (r.width - r.bits)

instance (r : Range) (a : List Byte) : Decidable (Covers r a) := by unfold Covers; infer_instance

/-- A single address. -/
def Range.Single (r : Range) : Prop := r.bits = r.width

instance (r : Range) : Decidable r.Single := by unfold Range.Single; infer_instance

/-- `e` is a proper part of `r`. -/
def Inside (e r : Range) : Prop :=
  e.six = r.six ∧ r.bits < e.bits ∧ e.base / 2 ^ (r.width - r.bits) = r.base / 2 ^ (r.width - r.bits)

instance (e r : Range) : Decidable (Inside e r) := by unfold Inside; infer_instance

/-- The text of an address or range in a configuration file.  (`::` alone is not accepted by the
code, see `IpText.v6_accepts_false`.) -/
inductive RangeText : List Byte → Range → Prop where
  | v4 {s : List Byte} {a b c d : Nat} (h : V4Text s a b c d) (ha : a ≤ 255) (hb : b ≤ 255) (hc : c ≤ 255)
      (hd : d ≤ 255) : RangeText s ⟨false, ((a * 256 + b) * 256 + c) * 256 + d, 32⟩
  | v4net {s t : List Byte} {a b c d n : Nat} (h : V4Text s a b c d) (ha : a ≤ 255) (hb : b ≤ 255) (hc : c ≤ 255)
      (hd : d ≤ 255) (ht : DecNum t n) (hn : n ≤ 32) :
      RangeText (s ++ 47 :: t) ⟨false, ((a * 256 + b) * 256 + c) * 256 + d, n⟩
  | v6 {s : List Byte} {vs : List Nat} (h : V6Text s vs) (hs : s ≠ [58, 58]) :
      RangeText s ⟨true, vs.foldl (fun n v => n * 65536 + v) 0, 128⟩
  | v6net {s t : List Byte} {vs : List Nat} {n : Nat} (h : V6Text s vs) (hs : s ≠ [58, 58]) (ht : DecNum t n)
      (hn : n ≤ 128) : RangeText (s ++ 47 :: t) ⟨true, vs.foldl (fun n v => n * 65536 + v) 0, n⟩

/-- An entry of the list: its text, what the text means, what to do with the address and the
replacement. -/
structure Entry where
  text : List Byte
  range : Range
  type : Nat
  data : Option (List Byte)

end Verif.IpChunk
