import Verif.Spec.Record
import Verif.Spec.Name
/-! What responses say and what a reply built from them may say.  Nothing of the cache is used. -/

namespace Verif.DnsCache.Spec
open Message Name

/-- The data of a record: opaque (A, AAAA, HTTPS, TXT), a name (CNAME, NS, PTR), a mail exchange. -/
inductive Value where
  | raw (d : List Byte)
  | name (ls : List (List Byte))
  | mx (pref : Nat) (ls : List (List Byte))
deriving DecidableEq, Repr

/-- A record of class IN with its names as labels. -/
structure Fact where
  owner : List (List Byte)
  type : Nat
  ttl : Nat
  value : Value
deriving DecidableEq, Repr

/-- The types that are cached: A, NS, CNAME, PTR, MX, TXT, AAAA, HTTPS. -/
def Cached (t : Nat) : Prop := t = 1 ∨ t = 2 ∨ t = 5 ∨ t = 12 ∨ t = 15 ∨ t = 16 ∨ t = 28 ∨ t = 65

/-- A name as RFC 1035 limits it. -/
def RfcName (ls : List (List Byte)) : Prop := ValidName ls ∧ (text ls).length ≤ 253

/-- The bytes of a message, zero behind its end. -/
def bytesAt (b : List Byte) (i : Nat) : Byte := b.getD i 0

/-- The record `r`, which lies at offset `p` of the message `b`, says `f`. -/
structure Reads (b : List Byte) (p : Nat) (r : RR) (f : Fact) : Prop where
  type : r.type = f.type
  ttl : r.ttl = f.ttl
  klass : r.klass = 1
  owner : RfcName f.owner
  ownerAt : ∃ k, Denotes (bytesAt b) b.length p f.owner k
  value : match f.value with
    | .raw d => (f.type = 1 ∨ f.type = 16 ∨ f.type = 28 ∨ f.type = 65) ∧ r.rdata = d ∧ d ≠ []
    | .name ls => (f.type = 2 ∨ f.type = 5 ∨ f.type = 12) ∧ RfcName ls ∧
        ∃ k, Denotes (bytesAt b) b.length (p + r.name.length + 10) ls k
    | .mx pref ls => f.type = 15 ∧ RfcName ls ∧ pref < 65536 ∧ r.rdata.take 2 = u16 pref ∧ 2 < r.rdata.length ∧
        ∃ k, Denotes (bytesAt b) b.length (p + r.name.length + 12) ls k

/-- The records `rs`, which lie from `p` on in the message `b`, say `fs`, other classes and types apart. -/
inductive Says (b : List Byte) : Nat → List RR → List Fact → Prop where
  | nil (p : Nat) : Says b p [] []
  | skip {p : Nat} {r : RR} {rs : List RR} {fs : List Fact} (h : ¬ (Cached r.type ∧ r.klass = 1))
      (hs : Says b (p + r.bytes.length) rs fs) : Says b p (r :: rs) fs
  | cons {p : Nat} {r : RR} {rs : List RR} {f : Fact} {fs : List Fact} (h : Reads b p r f) (hc : Cached r.type)
      (hs : Says b (p + r.bytes.length) rs fs) : Says b p (r :: rs) (f :: fs)

/-- The response, which repeats the question, says `fs`: answers, authority and additional records in this
order. -/
def Response (m : Msg) (fs : List Fact) : Prop :=
  m.Valid ∧ m.qs ≠ [] ∧ Says m.bytes (12 + (qBytes m.qs).length) (m.an ++ (m.ns ++ m.ar)) fs

/-- The record data in a message without compression. -/
def Value.wire : Value → List Byte
  | .raw d => d
  | .name ls => Name.wire ls
  | .mx pref ls => u16 pref ++ Name.wire ls

/-- A sequence of records that answers a question for name `ls` and type `t`: aliases from name to name,
then at least one record of that type for the last name. -/
inductive Answers (t : Nat) : List (List Byte) → List Fact → Prop where
  | records (ls : List (List Byte)) (fs : List Fact) (hne : fs ≠ []) (h : ∀ f ∈ fs, f.owner = ls ∧ f.type = t) :
      Answers t ls fs
  | alias (ls target : List (List Byte)) (ttl : Nat) (fs : List Fact) (h : Answers t target fs) :
      Answers t ls (⟨ls, 5, ttl, .name target⟩ :: fs)

/-- Record `x`, at offset `p` of the message `b`, is `f` (its data uncompressed). -/
def Is (b : List Byte) (p : Nat) (x : RR) (f : Fact) : Prop :=
  x.type = f.type ∧ x.klass = 1 ∧ x.ttl = f.ttl ∧ x.rdata = f.value.wire ∧ ∃ k, Denotes (bytesAt b) b.length p f.owner k

/-- `r` is a reply to the query `q`, with the given answers: identifier and question of the query, flags of a
reply without error, an EDNS record if the client uses EDNS, nothing else. -/
structure ReplyWith (q : Msg) (edns : Bool) (fs : List Fact) (r : Msg) : Prop where
  valid : r.Valid
  head : r.head = q.head.take 2 ++ [UInt8.ofNat (128 + (q.head.getD 2 0).toNat % 4),
    UInt8.ofNat (128 + (q.head.getD 3 0).toNat / 16 % 8 * 16)]
  qs : r.qs = q.qs
  num : r.an.length = fs.length
  an : ∀ i x f, r.an[i]? = some x → fs[i]? = some f → Is r.bytes (12 + (qBytes r.qs).length + (rrBytes (r.an.take i)).length) x f
  ns : r.ns = []
  ar : r.ar = if edns then [⟨[0], 41, 1280, 0, []⟩] else []

end Verif.DnsCache.Spec
