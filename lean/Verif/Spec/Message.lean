import Verif.Model.CBase
/-! The DNS message format (RFC 1035, section 4) as the concatenation of its parts. -/

namespace Verif.Message

/-- Big-endian 16- and 32-bit fields. -/
def u16 (n : Nat) : List Byte := [UInt8.ofNat (n / 256), UInt8.ofNat n]
def u32 (n : Nat) : List Byte := u16 (n / 65536) ++ u16 n

/-- The forms a domain name can take in a message: labels of 1 to 63 bytes, ended by a zero byte or by
a two-byte compression pointer. -/
inductive WireName : List Byte → Prop where
  | root : WireName [0]
  | pointer (a b : Byte) (h : 192 ≤ a.toNat) : WireName [a, b]
  | label (l rest : List Byte) (h1 : 1 ≤ l.length) (h2 : l.length ≤ 63) (hr : WireName rest) :
      WireName (UInt8.ofNat l.length :: (l ++ rest))

structure Question where
  name : List Byte
  type : Nat
  klass : Nat
deriving DecidableEq, Repr

structure RR where
  name : List Byte
  type : Nat
  klass : Nat
  ttl : Nat
  rdata : List Byte
deriving DecidableEq, Repr

def Question.bytes (q : Question) : List Byte := q.name ++ (u16 q.type ++ u16 q.klass)

def RR.bytes (r : RR) : List Byte :=
  r.name ++ (u16 r.type ++ (u16 r.klass ++ (u32 r.ttl ++ (u16 r.rdata.length ++ r.rdata))))

/-- Type and class 0 are reserved and not used in messages. -/
def Question.Valid (q : Question) : Prop :=
  WireName q.name ∧ 0 < q.type ∧ q.type < 65536 ∧ 0 < q.klass ∧ q.klass < 65536

def RR.Valid (r : RR) : Prop :=
  WireName r.name ∧ 0 < r.type ∧ r.type < 65536 ∧ 0 < r.klass ∧ r.klass < 65536 ∧
  r.ttl < 4294967296 ∧ r.rdata.length < 65536

/-- A message: the first four header bytes (ID, flags) and the four sections. -/
structure Msg where
  head : List Byte
  qs : List Question
  an : List RR
  ns : List RR
  ar : List RR
deriving DecidableEq, Repr

def qBytes (l : List Question) : List Byte := (l.map Question.bytes).flatten
def rrBytes (l : List RR) : List Byte := (l.map RR.bytes).flatten

def Msg.body (m : Msg) : List Byte := qBytes m.qs ++ (rrBytes m.an ++ (rrBytes m.ns ++ rrBytes m.ar))

def Msg.header (m : Msg) : List Byte :=
  m.head ++ (u16 m.qs.length ++ (u16 m.an.length ++ (u16 m.ns.length ++ u16 m.ar.length)))

def Msg.bytes (m : Msg) : List Byte := m.header ++ m.body

structure Msg.Valid (m : Msg) : Prop where
  head : m.head.length = 4
  qs : ∀ q ∈ m.qs, q.Valid
  an : ∀ r ∈ m.an, r.Valid
  ns : ∀ r ∈ m.ns, r.Valid
  ar : ∀ r ∈ m.ar, r.Valid
  qd16 : m.qs.length < 65536
  an16 : m.an.length < 65536
  ns16 : m.ns.length < 65536
  ar16 : m.ar.length < 65536

end Verif.Message
