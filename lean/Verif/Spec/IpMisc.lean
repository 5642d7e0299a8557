import Verif.Spec.Message
import Verif.Spec.IpChunk
/-! What blocking and substituting addresses means for a message. -/

namespace Verif.IpMisc
open Message

/-- What the configuration says about an address: nothing, or an action (1: block, 2: substitute) with
the replacement. -/
abbrev Policy := List Byte → Option (Nat × Option (List Byte))

/-- The policy of a list of entries: an entry for exactly this address comes first, then the first entry
that covers it. -/
def policy (es : List IpChunk.Entry) : Policy := fun a =>
  ((es.find? (fun e => e.range.Single ∧ IpChunk.Covers e.range a)).or
    (es.find? (fun e => IpChunk.Covers e.range a))).map (fun e => (e.type, e.data))

/-- The record is an address record of class IN, with data of the right length. -/
def IsAddr (r : RR) : Prop :=
  r.klass = 1 ∧ ((r.type = 1 ∧ r.rdata.length = 4) ∨ (r.type = 28 ∧ r.rdata.length = 16))

instance (r : RR) : Decidable (IsAddr r) := by unfold IsAddr; infer_instance

/-- No address record with data of the wrong length. -/
def Sane (r : RR) : Prop := r.klass = 1 → (r.type = 1 → r.rdata.length = 4) ∧ (r.type = 28 → r.rdata.length = 16)

instance (r : RR) : Decidable (Sane r) := by unfold Sane; infer_instance

/-- The address of the record is to be blocked. -/
def Blocked (L : Policy) (r : RR) : Prop := IsAddr r ∧ ∃ d, L r.rdata = some (1, d)

/-- The record with its address replaced, if the policy asks for it. -/
def replaced (L : Policy) (r : RR) : RR :=
  if IsAddr r then
    match L r.rdata with
    | some (2, some d) => { r with rdata := d.take r.rdata.length }
    | _ => r
  else r

/-- Replacements are long enough for the address they are found for. -/
def Ready (L : Policy) : Prop :=
  ∀ a d, L a = some (2, d) → ∃ x, d = some x ∧ a.length ≤ x.length

end Verif.IpMisc
