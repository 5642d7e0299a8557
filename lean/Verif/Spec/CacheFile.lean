import Verif.Model.CacheFile
/-! What the life of a cache file says, independently of how the cache works.  Only the data types of the
model are used. -/

namespace Verif.CacheFile.Spec
open Verif.Cache

/-- The operations of a life, completed or not. -/
def ops (evs : List Ev) : List Op :=
  evs.filterMap fun e => match e with | .op o => some o | .kill o _ => some o | .restart _ _ => none

/-- The options `IgnoreTTL` and `CacheParallel` are never both on. -/
def Apart (evs : List Ev) : Prop := ∀ i p, Ev.restart i p ∈ evs → i = false ∨ p = false

/-- `CacheParallel` is never on. -/
def Single (evs : List Ev) : Prop := ∀ i p, Ev.restart i p ∈ evs → p = false

/-- No kill. -/
def Calm (evs : List Ev) : Prop := ∀ o k, Ev.kill o k ∉ evs

/-- The file begins with the version of the format, 23, and the size of the cache, both as 32-bit
little-endian numbers. -/
def Head (f : List Byte) (size : Nat) : Prop :=
  ∃ a b c d rest, f = [23, 0, 0, 0, a, b, c, d] ++ rest ∧
    a.toNat + 256 * b.toNat + 65536 * c.toNat + 16777216 * d.toNat = size

end Verif.CacheFile.Spec
