import Verif.Spec.Message
import Verif.Spec.Name
import Verif.Model.Parser
/-! What appending a record to a message means (`Purpose` is only used as the name of a section). -/

namespace Verif.Message
open Name Parser

/-- The message with one more record at the end of a section. -/
def Msg.add (m : Msg) (s : Purpose) (r : RR) : Msg :=
  match s with
  | .answer => { m with an := m.an ++ [r] }
  | .nameServer => { m with ns := m.ns ++ [r] }
  | .additional => { m with ar := m.ar ++ [r] }
  | _ => m

/-- The number of records in a section. -/
def Msg.count (m : Msg) (s : Purpose) : Nat :=
  match s with
  | .question => m.qs.length
  | .answer => m.an.length
  | .nameServer => m.ns.length
  | .additional => m.ar.length
  | .unknown => 0

/-- The sections behind `s` are empty: records of section `s` can be appended at the end. -/
def Msg.OpenAt (m : Msg) (s : Purpose) : Prop :=
  match s with
  | .question => m.an = [] ∧ m.ns = [] ∧ m.ar = []
  | .answer => m.ns = [] ∧ m.ar = []
  | .nameServer => m.ar = []
  | .additional => True
  | .unknown => False

/-- The kinds of records dnsforwarder writes. -/
inductive Rec where
  | a (owner : List (List Byte)) (addr : List Byte) (ttl : Nat)
  | aaaa (owner : List (List Byte)) (addr : List Byte) (ttl : Nat)
  | raw (owner : List (List Byte)) (type klass : Nat) (data : List Byte) (ttl : Nat)
  | alias (owner target : List (List Byte)) (ttl : Nat)
  | mx (owner : List (List Byte)) (pref : Nat) (target : List (List Byte)) (ttl : Nat)
  | edns (payload : Nat)

/-- The resource record meant. -/
def Rec.rr : Rec → RR
  | .a o addr ttl => ⟨wire o, 1, 1, ttl, addr⟩
  | .aaaa o addr ttl => ⟨wire o, 28, 1, ttl, addr⟩
  | .raw o t k d ttl => ⟨wire o, t, k, ttl, d⟩
  | .alias o tgt ttl => ⟨wire o, 5, 1, ttl, wire tgt⟩
  | .mx o p tgt ttl => ⟨wire o, 15, 1, ttl, u16 p ++ wire tgt⟩
  | .edns p => ⟨[0], 41, p, 0, []⟩

/-- The owner name of a record. -/
def Rec.owner : Rec → List (List Byte)
  | .a o _ _ | .aaaa o _ _ | .raw o _ _ _ _ | .alias o _ _ | .mx o _ _ _ => o
  | .edns _ => []

/-- The record's names are valid and its fields fit their widths.  The target of an alias may be anything. -/
def Rec.Valid : Rec → Prop
  | .a o addr ttl => ValidName o ∧ addr.length = 4 ∧ ttl < 4294967296
  | .aaaa o addr ttl => ValidName o ∧ addr.length = 16 ∧ ttl < 4294967296
  | .raw o t k d ttl => ValidName o ∧ 0 < t ∧ t < 65536 ∧ 0 < k ∧ k < 65536 ∧ d ≠ [] ∧
      d.length < 65536 ∧ ttl < 4294967296
  | .alias o tgt ttl => ValidName o ∧ Pieces tgt ∧ (wire tgt).length < 65536 ∧ ttl < 4294967296
  | .mx o p tgt ttl => ValidName o ∧ ValidName tgt ∧ (wire tgt).length + 2 < 65536 ∧ p < 65536 ∧
      ttl < 4294967296
  | .edns p => 0 < p ∧ p < 65536

/-- Resource records go to the last three sections, EDNS records to the last. -/
def Rec.Fits (r : Rec) (s : Purpose) : Prop :=
  match r with
  | .edns _ => s = .additional
  | _ => s = .answer ∨ s = .nameServer ∨ s = .additional

end Verif.Message
