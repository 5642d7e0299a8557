/-! Conventions shared by the models: C strings as byte lists, integer conversions. -/

namespace Verif

/-- A byte of memory (`char`, `unsigned char`). -/
abbrev Byte := UInt8

/-- The bytes of a Lean string literal (ASCII), for examples. -/
def str (s : String) : List Byte := s.toList.map (fun c => c.toNat.toUInt8)

/-- Conversion of a `uint32_t` value to `int` (two's complement, as on all supported targets). -/
def asInt32 (u : UInt32) : Int := if u.toNat < 2 ^ 31 then u.toNat else (u.toNat : Int) - 2 ^ 32

/-- `char` is signed on the supported targets: its value as an `uint32_t` operand. -/
def charToU32 (c : Byte) : UInt32 := if c < 128 then c.toUInt32 else c.toUInt32 + 0xFFFFFF00

/-- utils.c 758-770 `BKDRHash`: `hash = hash * 131 + *str` in `uint32_t`.  (utils.h 16: this is
`HASH`.) -/
def bkdrHash (s : List Byte) : UInt32 := s.foldl (fun h c => h * 131 + charToU32 c) 0

/-- utils.c 87-95 `StrToLower`: ASCII `tolower` on every byte. -/
def toLowerByte (c : Byte) : Byte := if 65 ≤ c ∧ c ≤ 90 then c + 32 else c

def strToLower (s : List Byte) : List Byte := s.map toLowerByte

end Verif
