import Verif.Spec.DnsCache
import Verif.Spec.IpText
/-! What the log says of a message.  Nothing of the program's own functions is used. -/

namespace Verif.Show
open Message Name IpText
open DnsCache.Spec (bytesAt)

/-- `t` is the number `n` in decimal, without leading zeros. -/
def Decimal (n : Nat) (t : List Byte) : Prop := DecNum t n ∧ (t.head? = some 48 → t = [48])

/-- The names of the types of records. -/
def kinds : List (Nat × String) :=
  [(1, "IPv4 Address"), (2, "Name Server"), (5, "Canonical Name"), (6, "Start of Authority"), (12, "Domain Pointer"),
   (13, "Host Information"), (15, "MX"), (16, "TXT"), (17, "RP"), (18, "AFSDB"), (24, "SIG"), (25, "KEY"),
   (28, "IPv6 Address"), (29, "LOC"), (33, "SRV"), (35, "NAPTR"), (36, "KX"), (37, "CERT"), (39, "DNAME"), (41, "OPT"),
   (42, "APL"), (43, "DS"), (44, "SSHFP"), (45, "IPSECKEY"), (46, "RRSIG"), (47, "NSEC"), (48, "DNSKEY"), (49, "DHCID"),
   (50, "NSEC3"), (51, "NSEC3PARAM"), (55, "HIP"), (64, "SVCB"), (65, "HTTPS"), (99, "SPF"), (249, "TKEY"), (250, "TSIG"),
   (251, "IXFR"), (252, "AXFR"), (255, "*"), (32768, "TA"), (32769, "DLV")]

/-- How a type is called: by its name, or by its number if it has none. -/
inductive Kind.Label : Nat → List Byte → Prop where
  | known {t : Nat} {s : String} (h : (t, s) ∈ kinds) : Label t (str s)
  | unknown {t : Nat} {n : List Byte} (h : ∀ s, (t, s) ∉ kinds) (hn : Decimal t n) : Label t (str "UNKNOWN (" ++ (n ++ str ")"))

/-- One line: what it is about and the value. -/
abbrev Field := List Byte × List Byte

def Field.line (f : Field) : List Byte := str "   " ++ (f.1 ++ (str ": " ++ (f.2 ++ str "\n")))

/-- A name that has a text. -/
def Plain (ls : List (List Byte)) : Prop := (∀ l ∈ ls, (0 : Byte) ∉ l) ∧ (text ls).length ≤ 253

/-- The types whose data are shown; of the others only the length is. -/
def shownTypes : List Nat := [1, 2, 5, 6, 12, 15, 16, 28, 41]

/-- What is to be said of a record of a given type with these data, which lie at `row` of the message `b`. -/
inductive Fields (b : List Byte) (row : Nat) : Nat → List Byte → List Field → Prop where
  | a {w x y z : Byte} {s t u v : List Byte} (hs : Decimal w.toNat s) (ht : Decimal x.toNat t) (hu : Decimal y.toNat u) (hv : Decimal z.toNat v) :
      Fields b row 1 [w, x, y, z] [(str "IPv4 Address", s ++ 46 :: (t ++ 46 :: (u ++ 46 :: v)))]
  | aaaa {d t : List Byte} {vs : List Nat} (hd : V6Bytes d vs) (ht : Canonical t vs) : Fields b row 28 d [(str "IPv6 Address", t)]
  | name {t : Nat} {d l : List Byte} {ls : List (List Byte)} (ht : t = 2 ∨ t = 5 ∨ t = 12) (hl : Kind.Label t l) (hp : Plain ls)
      (hd : Denotes (bytesAt b) b.length row ls d.length) : Fields b row t d [(l, text ls)]
  | txt {ss : List (List Byte)} (h : ∀ s ∈ ss, s.length < 256 ∧ (0 : Byte) ∉ s) :
      Fields b row 16 (ss.map fun s => UInt8.ofNat s.length :: s).flatten [(str "TXT", ss.flatten)]
  | mx {d n : List Byte} {pref : Nat} {ls : List (List Byte)} {k : Nat} (hn : Decimal pref n) (h16 : pref < 65536) (hp : Plain ls)
      (h2 : d.take 2 = u16 pref) (hd : Denotes (bytesAt b) b.length (row + 2) ls k) (hk : d.length = 2 + k) :
      Fields b row 15 d [(str "preference", n), (str "mail exchanger", text ls)]
  | soa {d n1 n2 n3 n4 n5 : List Byte} {i1 i2 i3 i4 i5 : Nat} {ls ms : List (List Byte)} {j k : Nat} (hp : Plain ls) (hp' : Plain ms)
      (hd : Denotes (bytesAt b) b.length row ls j) (hd' : Denotes (bytesAt b) b.length (row + j) ms k)
      (hi : d.drop (j + k) = u32 i1 ++ (u32 i2 ++ (u32 i3 ++ (u32 i4 ++ u32 i5))))
      (h1 : i1 < 4294967296 ∧ Decimal i1 n1) (h2 : i2 < 4294967296 ∧ Decimal i2 n2) (h3 : i3 < 4294967296 ∧ Decimal i3 n3)
      (h4 : i4 < 4294967296 ∧ Decimal i4 n4) (h5 : i5 < 4294967296 ∧ Decimal i5 n5) :
      Fields b row 6 d [(str "(SOA)primary name server", text ls), (str "(SOA)responsible mail addr", text ms), (str "(SOA)serial", n1),
        (str "(SOA)refresh", n2), (str "(SOA)retry", n3), (str "(SOA)expire", n4), (str "(SOA)default TTL", n5)]
  | opt {d : List Byte} : Fields b row 41 d [(str "OPT", str "Pseudo-RR")]
  | other {t : Nat} {d l n : List Byte} (ht : t ∉ shownTypes) (hl : Kind.Label t l) (hn : Decimal d.length n) :
      Fields b row t d [(l, n ++ str " bytes")]

/-- What is to be said of the records `rs`, all of them in `C`, which lie from `p` on in the message `b`. -/
inductive Lines (C : RR → Prop) (b : List Byte) : Nat → List RR → List (List Field) → Prop where
  | nil (p : Nat) : Lines C b p [] []
  | cons {p : Nat} {r : RR} {rs : List RR} {fs : List Field} {fss : List (List Field)} (hc : C r)
      (h : Fields b (p + r.name.length + 10) r.type r.rdata fs) (hs : Lines C b (p + r.bytes.length) rs fss) : Lines C b p (r :: rs) (fs :: fss)

/-- Records of class IN; in an OPT record the field of the class has another meaning. -/
def Internet (r : RR) : Prop := r.klass = 1 ∨ r.type = 41

/-- What is to be said of the answers, the authority and the additional records of a message. -/
def SaysOf (C : RR → Prop) (m : Msg) (fss : List (List Field)) : Prop :=
  Lines C m.bytes (12 + (qBytes m.qs).length) (m.an ++ (m.ns ++ m.ar)) fss

/-- How many records the header announces, questions apart. -/
def announced (b : List Byte) : Nat :=
  (b.getD 6 0).toNat * 256 + (b.getD 7 0).toNat + ((b.getD 8 0).toNat * 256 + (b.getD 9 0).toNat) + ((b.getD 10 0).toNat * 256 + (b.getD 11 0).toNat)

/-- The lines of records as one text. -/
def shown (fss : List (List Field)) : List Byte := (fss.flatten.map Field.line).flatten

/-- `out` shows the records in the space of `size` bytes: as many of them as fit, in order, and the number of the others. -/
def Shows (size : Nat) (fss : List (List Field)) (out : List Byte) : Prop :=
  ∃ k, k ≤ fss.length ∧ (shown (fss.take k)).length + 23 ≤ size ∧
    if k < fss.length then
      (∃ n, Decimal (fss.length - k) n ∧ out = shown (fss.take k) ++ (str "   And " ++ (n ++ str " More ...\n"))) ∧
      size < (shown (fss.take (k + 1))).length + 25
    else out = if fss = [] then str "   Nothing.\n" else shown fss

end Verif.Show
