import Verif.Model.AddressList
import Verif.Spec.IpText
/-! The documented textual forms of server addresses (addresslist.h 47-66, default.config). -/

namespace Verif.AddressList
open IpText

/-- A decimal number without leading zeros. -/
def Plain (s : List Byte) (n : Nat) : Prop := DecNum s n ∧ (s.head? = some 48 → s = [48])

/-- Dotted decimal text of an IPv4 address. -/
inductive V4Plain : List Byte → List Byte → Prop where
  | mk {s t u v : List Byte} {a b c d : Byte} (h1 : Plain s a.toNat) (h2 : Plain t b.toNat) (h3 : Plain u c.toNat)
      (h4 : Plain v d.toNat) : V4Plain (s ++ 46 :: (t ++ 46 :: (u ++ 46 :: v))) [a, b, c, d]

/-- Nothing, or a colon and a port. -/
inductive PortText (dflt : Nat) : List Byte → Nat → Prop where
  | absent : PortText dflt [] dflt
  | given {t : List Byte} {p : Nat} (h : DecNum t p) (hp : p ≤ 65535) : PortText dflt (58 :: t) p

/-- `s` is the text of a server address. -/
inductive ServerText (dflt : Nat) : List Byte → Family → List Byte → Nat → Prop where
  | v4 {t q a : List Byte} {p : Nat} (h : V4Plain t a) (hq : PortText dflt q p) : ServerText dflt (t ++ q) .inet a p
  | v6 {t q a : List Byte} {vs : List Nat} {p : Nat} (h : V6Text t vs) (ha : V6Bytes a vs) (hq : PortText dflt q p) :
      ServerText dflt (91 :: (t ++ 93 :: q)) .inet6 a p

/-- What is assumed of `inet_addr`: it understands dotted decimal texts. -/
def InetOk (inet : List Byte → List Byte) : Prop := ∀ t a, V4Plain t a → inet t = a

/-- A name where an address should be: it begins with a letter, and has no bracket. -/
def NotAnAddress (t : List Byte) : Prop :=
  (∃ c r, t = c :: r ∧ (65 ≤ c.toNat ∧ c.toNat ≤ 90 ∨ 97 ≤ c.toNat ∧ c.toNat ≤ 122)) ∧ (91 : Byte) ∉ t

end Verif.AddressList
