import Verif.Spec.DnsCache
/-! What the reply to a query for an alias of the hosts data has to say.  Nothing of the alias worker is used. -/

namespace Verif.HostsLoop.Spec
open Message Name DnsCache.Spec

/-- A name in lower case. -/
def lower (ls : List (List Byte)) : List (List Byte) := ls.map (·.map toLowerByte)

/-- No byte of the name is 192 or more. -/
def Simple (ls : List (List Byte)) : Prop := ∀ l ∈ ls, ∀ c ∈ l, c.toNat < 192

/-- An alias, an IPv4 or an IPv6 address, for a simple name other than the root. -/
def Plain (f : Fact) : Prop :=
  f.owner ≠ [] ∧ Simple f.owner ∧
    match f.value with
    | .raw d => f.type = 1 ∧ d.length = 4 ∨ f.type = 28 ∧ d.length = 16
    | .name ls => f.type = 5 ∧ Simple ls
    | .mx _ _ => False

/-- The types of records that are copied: IPv4 addresses, aliases, IPv6 addresses. -/
def Taken (t : Nat) : Prop := t = 1 ∨ t = 5 ∨ t = 28

instance (t : Nat) : Decidable (Taken t) := by unfold Taken; infer_instance

/-- The aliases and addresses. -/
def taken (fs : List Fact) : List Fact := fs.filter fun f => Taken f.type

/-- What the record `r` at `p` of the response `b` says, with `post` behind the response, if it is an alias or address: an address is the four or
sixteen bytes from the place of the data on, however many data there are. -/
structure Sees (b post : List Byte) (p : Nat) (r : RR) (f : Fact) : Prop where
  type : r.type = f.type
  ttl : r.ttl = f.ttl
  klass : r.klass = 1
  owner : RfcName f.owner ∧ f.owner ≠ [] ∧ Simple f.owner
  ownerAt : ∃ k, Denotes (bytesAt b) b.length p f.owner k
  value : match f.value with
    | .raw d => (f.type = 1 ∧ d.length = 4 ∨ f.type = 28 ∧ d.length = 16) ∧
        ∃ x y, b ++ post = x ++ (d ++ y) ∧ x.length = p + r.name.length + 10
    | .name ls => f.type = 5 ∧ RfcName ls ∧ Simple ls ∧ ∃ k, Denotes (bytesAt b) b.length (p + r.name.length + 10) ls k
    | .mx _ _ => False

/-- The aliases and addresses among the records `rs`, which lie from `p` on, as they are seen. -/
inductive Seen (b post : List Byte) : Nat → List RR → List Fact → Prop where
  | nil (p : Nat) : Seen b post p [] []
  | skip {p : Nat} {r : RR} {rs : List RR} {fs : List Fact} (h : ¬ Taken r.type)
      (hs : Seen b post (p + r.bytes.length) rs fs) : Seen b post p (r :: rs) fs
  | cons {p : Nat} {r : RR} {rs : List RR} {f : Fact} {fs : List Fact} (h : Sees b post p r f)
      (hs : Seen b post (p + r.bytes.length) rs fs) : Seen b post p (r :: rs) (f :: fs)

/-- The records `fs`, which answer a question for the name `ls` and the type `t` – aliases from name to name, then records of
that type for the last name, or none – and the same records with every name written as where it was mentioned first. -/
inductive Follows (t : Nat) : List (List Byte) → List Fact → List Fact → Prop where
  | records (ls : List (List Byte)) (fs : List Fact) (h : ∀ f ∈ fs, lower f.owner = lower ls ∧ f.type = t) :
      Follows t ls fs (fs.map fun f => { f with owner := ls })
  | alias (ls ls' target : List (List Byte)) (ttl : Nat) (fs fs' : List Fact) (h : lower ls' = lower ls) (hr : Follows t target fs fs') :
      Follows t ls (⟨ls', 5, ttl, .name target⟩ :: fs) (⟨ls, 5, ttl, .name target⟩ :: fs')

/-- The records said of other names: those in front of the first alias of `ls`, those behind an alias of its target. -/
def renamed : List (List Byte) → List Fact → List Fact
  | _, [] => []
  | ls, f :: fs => { f with owner := ls } :: renamed (match f.value with | .name tg => tg | _ => ls) fs

/-- How many bytes the records need without compression. -/
def size (fs : List Fact) : Nat := (fs.map fun f => (wire f.owner).length + 10 + f.value.wire.length).sum

/-- `out` is a reply with the given identifier, question and answers, the flags of the response `r`, an EDNS record if the client uses EDNS,
nothing else. -/
structure Combined (id : Nat) (q : Question) (edns : Bool) (fs : List Fact) (r out : Msg) : Prop where
  valid : out.Valid
  head : out.head = u16 id ++ r.head.drop 2
  qs : out.qs = [q]
  num : out.an.length = fs.length
  an : ∀ i x f, out.an[i]? = some x → fs[i]? = some f → Is out.bytes (12 + (qBytes out.qs).length + (rrBytes (out.an.take i)).length) x f
  ns : out.ns = []
  ar : out.ar = if edns then [⟨[0], 41, 1280, 0, []⟩] else []

end Verif.HostsLoop.Spec
