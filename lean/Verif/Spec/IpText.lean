import Verif.Model.CBase
/-! The textual forms of IP addresses: dotted decimal, RFC 4291 section 2.2 for IPv6, RFC 5952 for its
canonical form. -/

namespace Verif.IpText

/-- `c` is a decimal digit of value `d`. -/
def DecDigit (c : Byte) (d : Nat) : Prop := d < 10 ∧ c.toNat = 48 + d

instance (c : Byte) (d : Nat) : Decidable (DecDigit c d) := by unfold DecDigit; infer_instance

/-- `s` is a decimal number of value `n` (any number of digits, at least one). -/
inductive DecNum : List Byte → Nat → Prop where
  | one {c : Byte} {d : Nat} (h : DecDigit c d) : DecNum [c] d
  | more {s : List Byte} {n : Nat} {c : Byte} {d : Nat} (hs : DecNum s n) (h : DecDigit c d) : DecNum (s ++ [c]) (10 * n + d)

/-- Dotted decimal text of four numbers. -/
inductive V4Text : List Byte → Nat → Nat → Nat → Nat → Prop where
  | mk {s t u v : List Byte} {a b c d : Nat} (h1 : DecNum s a) (h2 : DecNum t b) (h3 : DecNum u c)
      (h4 : DecNum v d) : V4Text (s ++ 46 :: (t ++ 46 :: (u ++ 46 :: v))) a b c d

/-- A decimal number as the C library reads it: blanks, an optional sign, digits. -/
def SignedNum (t : List Byte) (v : Int) : Prop :=
  ∃ sp sg ds n, t = sp ++ sg ++ ds ∧ (∀ c ∈ sp, c = 32 ∨ (9 ≤ c ∧ c ≤ 13)) ∧ DecNum ds n ∧
    ((sg = [] ∧ v = n) ∨ (sg = [43] ∧ v = n) ∨ (sg = [45] ∧ v = -(n : Int)))

/-- `c` is a hexadecimal digit of value `d`, in either case. -/
def HexDigit (c : Byte) (d : Nat) : Prop :=
  (d < 10 ∧ c.toNat = 48 + d) ∨ (10 ≤ d ∧ d < 16 ∧ (c.toNat = 87 + d ∨ c.toNat = 55 + d))

instance (c : Byte) (d : Nat) : Decidable (HexDigit c d) := by unfold HexDigit; infer_instance

/-- `s` is a hexadecimal number of value `n`. -/
inductive HexNum : List Byte → Nat → Prop where
  | one {c : Byte} {d : Nat} (h : HexDigit c d) : HexNum [c] d
  | more {s : List Byte} {n : Nat} {c : Byte} {d : Nat} (hs : HexNum s n) (h : HexDigit c d) : HexNum (s ++ [c]) (16 * n + d)

/-- A group of an IPv6 address: one to four hexadecimal digits. -/
def Group (s : List Byte) (v : Nat) : Prop := HexNum s v ∧ s.length ≤ 4

/-- Texts separated by colons. -/
def join : List (List Byte) → List Byte
  | [] => []
  | [t] => t
  | t :: t' :: ts => t ++ 58 :: join (t' :: ts)

/-- Group texts and their values, one by one. -/
inductive Groups : List (List Byte) → List Nat → Prop where
  | nil : Groups [] []
  | cons {t : List Byte} {v : Nat} {ts : List (List Byte)} {vs : List Nat} (h : Group t v) (hs : Groups ts vs) :
      Groups (t :: ts) (v :: vs)

/-- RFC 4291, 2.2, forms 1 and 2: `s` denotes the address whose eight groups are `vs`. -/
inductive V6Text : List Byte → List Nat → Prop where
  | full {ts : List (List Byte)} {vs : List Nat} (h : Groups ts vs) (h8 : vs.length = 8) : V6Text (join ts) vs
  | short {ts us : List (List Byte)} {vs ws : List Nat} {k : Nat} (h : Groups ts vs) (h' : Groups us ws) (hk : 1 ≤ k) (h8 : vs.length + k + ws.length = 8) :
      V6Text (join ts ++ 58 :: 58 :: join us) (vs ++ List.replicate k 0 ++ ws)

/-- The bytes of an address, big endian. -/
def V6Bytes (a : List Byte) (vs : List Nat) : Prop :=
  a.length = 16 ∧ vs.length = 8 ∧
    ∀ i, i < 8 → (a.getD (2 * i) 0).toNat * 256 + (a.getD (2 * i + 1) 0).toNat = vs.getD i 0

/-- RFC 5952, 4.1 and 4.3: a group without leading zeros, in lower case. -/
def CanonGroup (s : List Byte) (v : Nat) : Prop :=
  Group s v ∧ (s.head? = some 48 → s = [48]) ∧ ∀ c ∈ s, ¬ (65 ≤ c ∧ c ≤ 70)

inductive CanonGroups : List (List Byte) → List Nat → Prop where
  | nil : CanonGroups [] []
  | cons {t : List Byte} {v : Nat} {ts : List (List Byte)} {vs : List Nat} (h : CanonGroup t v) (hs : CanonGroups ts vs) :
      CanonGroups (t :: ts) (v :: vs)

/-- `vs` has a run of `k` zero groups starting at `p`. -/
def ZeroRun (vs : List Nat) (p k : Nat) : Prop := p + k ≤ vs.length ∧ ∀ i, p ≤ i → i < p + k → vs.getD i 0 = 0

/-- RFC 5952, section 4: the canonical text.  The run replaced by `::` has at least two groups, no
run is longer, and no run of the same length starts earlier; it is used whenever there is a run of
two. -/
inductive Canonical : List Byte → List Nat → Prop where
  | full {ts : List (List Byte)} {vs : List Nat} (h : CanonGroups ts vs) (hz : ∀ p, ¬ ZeroRun vs p 2) : Canonical (join ts) vs
  | short {ts us : List (List Byte)} {vs ws : List Nat} {k : Nat} (h : CanonGroups ts vs) (h' : CanonGroups us ws) (hk : 2 ≤ k)
      (hlong : ∀ p, ¬ ZeroRun (vs ++ List.replicate k 0 ++ ws) p (k + 1))
      (hfirst : ∀ p, p < vs.length → ¬ ZeroRun (vs ++ List.replicate k 0 ++ ws) p k) :
      Canonical (join ts ++ 58 :: 58 :: join us) (vs ++ List.replicate k 0 ++ ws)

end Verif.IpText
