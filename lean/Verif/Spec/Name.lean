import Verif.Model.CBase
/-! Domain names as lists of labels, their text and wire forms (RFC 1035). -/

namespace Verif.Name

/-- A label: 1 to 63 bytes, none of them a dot or NUL. -/
def ValidLabel (l : List Byte) : Prop := 1 ≤ l.length ∧ l.length ≤ 63 ∧ ∀ c ∈ l, c ≠ 46 ∧ c ≠ 0

def ValidName (ls : List (List Byte)) : Prop := ∀ l ∈ ls, ValidLabel l

/-- What the dots of a text separate: pieces without dots, but not a single empty one. -/
def Pieces (ls : List (List Byte)) : Prop := ls ≠ [[]] ∧ ∀ l ∈ ls, ∀ c ∈ l, c ≠ 46

/-- Text form: labels separated by dots. -/
def text : List (List Byte) → List Byte
  | [] => []
  | [l] => l
  | l :: l' :: ls => l ++ 46 :: text (l' :: ls)

/-- Wire form: each label preceded by its length, then a zero byte. -/
def wire : List (List Byte) → List Byte
  | [] => [0]
  | l :: ls => UInt8.ofNat l.length :: (l ++ wire ls)

/-- `bytes` lies in `mem` at offset `p`. -/
def At (mem : Nat → Byte) (p : Nat) (bytes : List Byte) : Prop := ∀ i, (h : i < bytes.length) → mem (p + i) = bytes[i]

end Verif.Name

namespace Verif.Name

/-- The name that RFC 1035 assigns to offset `p` of a message of `len` bytes, with compression:
`Denotes mem len p ls k` means the labels are `ls` and the name occupies `k` bytes at `p`. -/
inductive Denotes (mem : Nat → Byte) (len : Nat) : Nat → List (List Byte) → Nat → Prop where
  | root (p : Nat) (h : mem p = 0) (hp : p < len) : Denotes mem len p [] 1
  | label (p : Nat) (l : List Byte) (ls : List (List Byte)) (k : Nat)
      (h1 : 1 ≤ l.length) (h2 : l.length ≤ 63)
      (hc : mem p = UInt8.ofNat l.length) (hl : At mem (p + 1) l) (hp : p + 1 + l.length ≤ len)
      (hr : Denotes mem len (p + 1 + l.length) ls k) :
      Denotes mem len p (l :: ls) (l.length + 1 + k)
  | pointer (p q : Nat) (ls : List (List Byte)) (k : Nat) (hp : p + 2 ≤ len) (hq : q < 16384)
      (hc : mem p = UInt8.ofNat (192 + q / 256)) (hd : mem (p + 1) = UInt8.ofNat q)
      (hr : Denotes mem len q ls k) : Denotes mem len p ls 2

end Verif.Name
