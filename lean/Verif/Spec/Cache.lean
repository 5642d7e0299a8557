import Verif.Model.Cache
/-! What a history of the cache says, independently of how the cache works.  Only the data types of
the model are used. -/

namespace Verif.Cache.Spec
open Verif.Cache Verif.CacheHT

/-- The record was handed to the cache at time `t` with lifetime `ttl`. -/
def Handed (ops : List Op) (key data : List Byte) (ttl : Nat) (t : Int) : Prop := Op.add key data ttl t ∈ ops

/-- Keys are texts without NUL, lifetimes are 32-bit numbers. -/
def Wf : Op → Prop
  | .add key _ ttl _ => (0 : Byte) ∉ key ∧ ttl < 4294967296
  | .sweep _ => True

/-- The area the cache was given can hold its slots; `hdr` is the size of its header. -/
def Area (cfg : Cfg) : Prop := 0 < cfg.nslots ∧ cfg.hdr + 4 * cfg.nslots ≤ cfg.size

/-- An upper bound of the bytes a record takes: one start byte, the key, a NUL and the data, rounded
up to a multiple of 16, and 32 bytes in the record index. -/
def cost : Op → Nat
  | .add key data _ _ => (key.length + data.length + 2 + 15) / 16 * 16 + 32
  | .sweep _ => 0

def total (ops : List Op) : Nat := (ops.map cost).sum

/-- Neither is the beginning of the other, unless they are equal. -/
def Apart (a b : List Byte) : Prop := a = b ∨ (¬ a <+: b ∧ ¬ b <+: a)

/-- Number `i` is in one of the chains that lookups follow. -/
inductive Linked (cfg : Cfg) (st : St) : Nat → Prop
  | head {s i : Nat} (hs : s < cfg.nslots) (h : st.ht.slots s = i) : Linked cfg st i
  | next {i j : Nat} (hi : Linked cfg st i) (h : (st.ht.nodes i).next = j) : Linked cfg st j

/-- The last byte of the area that is not part of the record index or the slots is before this one. -/
def indexStart (cfg : Cfg) (st : St) : Int := (cfg.size : Int) - 4 * cfg.nslots - 32 * st.ht.used

end Verif.Cache.Spec
