import Verif.Spec.HostsContainer
import Verif.Spec.Record
/-! What hosts data mean for a query (only the data types of the model are used). -/

namespace Verif.Hosts
open Message Name

/-- The data have an entry of type `ty` for the name. -/
def Has (fnm : List Byte → List Byte → Bool) (es : List Entry) (name : List Byte) (ty : HType) : Prop :=
  ∃ e ∈ entriesFor fnm es name, e.type = ty

/-- An alias entry redirects every query of another type (5 is CNAME). -/
def Redirects (fnm : List Byte → List Byte → Bool) (es : List Entry) (name : List Byte) (qtype : Nat) : Prop :=
  qtype ≠ 5 ∧ Has fnm es name .cname

/-- Entry `e` is the one that answers the query: an alias entry a CNAME query, an IPv4 entry, else a list, an A
query (type 1), an IPv6 entry, else an IPv4 entry, an AAAA query (type 28). -/
def AnswersBy (fnm : List Byte → List Byte → Bool) (es : List Entry) (name : List Byte) (qtype : Nat) (e : Entry) : Prop :=
  let l := entriesFor fnm es name
  (qtype = 5 ∧ Used l .cname e) ∨
  (¬ Has fnm es name .cname ∧
    ((qtype = 1 ∧ (Used l .a e ∨ ¬ Has fnm es name .a ∧ Used l .goodIpList e)) ∨
     (qtype = 28 ∧ (Used l .aaaa e ∨ ¬ Has fnm es name .aaaa ∧ Used l .a e))))

/-- The data have nothing for the query. -/
def Silent (fnm : List Byte → List Byte → Bool) (es : List Entry) (name : List Byte) (qtype : Nat) : Prop :=
  ¬ Has fnm es name .cname ∧ (qtype = 1 → ¬ Has fnm es name .a ∧ ¬ Has fnm es name .goodIpList) ∧
    (qtype = 28 → ¬ Has fnm es name .aaaa ∧ ¬ Has fnm es name .a)

/-- The record data an entry gives for a query: the alias name, the IPv4 address (the last four bytes of
the stored form), the first address of the list, the IPv6 or mapped address. -/
inductive RData (goodIp : List Byte → Option (List Byte)) : Nat → Entry → List Byte → Prop where
  | alias (name : List Byte) (target : List (List Byte)) (hv : Pieces target) (hl : (wire target).length < 65536) :
      RData goodIp 5 ⟨name, .cname, .text (text target)⟩ (wire target)
  | v4 (name b : List Byte) (hb : b.length = 16) : RData goodIp 1 ⟨name, .a, .addr (some b)⟩ (b.drop 12)
  | list (name t b : List Byte) (h : goodIp t = some b) (hb : b.length = 4) : RData goodIp 1 ⟨name, .goodIpList, .text t⟩ b
  | v6 (name b : List Byte) (ty : HType) (hb : b.length = 16) : RData goodIp 28 ⟨name, ty, .addr (some b)⟩ b

/-- `r` is the reply to the query `q`: its identifier, its question, one record of the queried type with 60
seconds to live whose owner is the queried name `ls`, and an EDNS record if the client uses EDNS.  Flags: a
response, not authoritative, recursion available, no error; truncation, recursion desired and the three
bits behind RA as in the query. -/
structure ReplyTo (q : Msg) (ls : List (List Byte)) (edns : Bool) (qtype : Nat) (rd : List Byte) (r : Msg) : Prop where
  head : r.head = q.head.take 2 ++ [UInt8.ofNat (128 + (q.head.getD 2 0).toNat % 4),
    UInt8.ofNat (128 + (q.head.getD 3 0).toNat / 16 % 8 * 16)]
  qs : r.qs = q.qs
  an : ∃ x, r.an = [x] ∧ x.type = qtype ∧ x.klass = 1 ∧ x.ttl = 60 ∧ x.rdata = rd
  owner : Denotes (fun i => r.bytes.getD i 0) r.bytes.length (12 + (qBytes r.qs).length) ls 2
  ns : r.ns = []
  ar : r.ar = if edns then [⟨[0], 41, 1280, 0, []⟩] else []

end Verif.Hosts
