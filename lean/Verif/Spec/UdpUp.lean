import Verif.Model.UdpUp
import Verif.Spec.AddressList
import Verif.Spec.StringList
/-! What a UDP group has to do.  Of the model only the data types are used. -/

namespace Verif.UdpUp
open AddressList IpText

/-- The addresses among these texts are `l`; the port is 53 if none is given. -/
inductive Texts : List (List Byte) → List Sock → Prop where
  | nil : Texts [] []
  | cons {t a : List Byte} {f : Family} {p : Nat} {ts : List (List Byte)} {l : List Sock} (h : ServerText 53 t f a p) (hs : Texts ts l) :
      Texts (t :: ts) (⟨f, some a, p⟩ :: l)
  | skip {t : List Byte} {ts : List (List Byte)} {l : List Sock} (h : NotAnAddress t) (hs : Texts ts l) : Texts (t :: ts) l

/-- `services` names the servers `l`, separated by commas or spaces. -/
def Names (services : List Byte) (l : List Sock) : Prop :=
  ∃ ps ts, StringList.Split (str ", ") services ps ∧ StringList.Trims (str "\t .") ps ts ∧ Texts ts l

/-- The servers a query is sent to after `k` sweeps in which queries had waited too long: all of the first one's family, or
one in turn. -/
def Asked (l : List Sock) (parallel : Bool) (k : Nat) (q : List Sock) : Prop :=
  if parallel then ∃ first, l.head? = some first ∧ q = l.filter (fun s => s.family = first.family)
  else ∃ s, l[(k % 4294967296) % l.length]? = some s ∧ q = [s]

/-- A message is sent to each of `q` over the socket, if there is one. -/
def sends (o : Option (Nat × Family)) (q : List Sock) (b : List Byte) : List Act :=
  match o with
  | none => []
  | some (fd, f) => q.map (fun s => .sendto fd f s b)

/-- The sweeps in which queries had waited too long. -/
def losses : List Ev → Nat
  | [] => 0
  | .sweep (_ + 1) :: l => losses l + 1
  | _ :: l => losses l

/-- How many queries had waited too long. -/
def lost : List Ev → Nat
  | [] => 0
  | .sweep n :: l => lost l + n
  | _ :: l => lost l

/-- Nothing is received and no socket is changed. -/
def Quiet (acts : List Act) : Prop := ∀ a ∈ acts, ∃ fd f s b, a = .sendto fd f s b

/-- These actions treat sockets properly, and leave the socket `q` open if `p` was: never more than one is open, only it is
closed, and used. -/
inductive Proper : Option (Nat × Family) → List Act → Option (Nat × Family) → Prop where
  | nil {p : Option (Nat × Family)} : Proper p [] p
  | opened {fd : Nat} {f : Family} {l : List Act} {q : Option (Nat × Family)} : Proper (some (fd, f)) l q → Proper none (.opened fd f :: l) q
  | closed {fd : Nat} {f : Family} {l : List Act} {q : Option (Nat × Family)} : Proper none l q → Proper (some (fd, f)) (.closed fd :: l) q
  | sendto {fd : Nat} {f : Family} {d : Sock} {b : List Byte} {l : List Act} {q : Option (Nat × Family)} :
      Proper (some (fd, f)) l q → Proper (some (fd, f)) (.sendto fd f d b :: l) q
  | taken {fd : Nat} {f : Family} {b : List Byte} {l : List Act} {q : Option (Nat × Family)} :
      Proper (some (fd, f)) l q → Proper (some (fd, f)) (.taken b :: l) q

end Verif.UdpUp
