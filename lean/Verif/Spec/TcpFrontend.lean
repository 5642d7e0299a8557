import Verif.Model.TcpFrontend
/-! Specifications for clients that ask over TCP. -/

namespace Verif.TcpFrontend
variable {Addr : Type}

/-- All bytes a client sends, before it closes. -/
def bytesOf : List Arr → List Byte
  | [] => []
  | .data b :: l => b ++ bytesOf l
  | .fail :: l => bytesOf l
  | .closed :: _ => []

/-- `s` consists of the messages `ms`, each with its length in front (RFC 1035, 4.2.2). -/
inductive Frames : List (List Byte) → List Byte → Prop where
  | nil : Frames [] []
  | cons (a b : Byte) {m : List Byte} {ms : List (List Byte)} {s : List Byte} :
      a.toNat * 256 + b.toNat = m.length → Frames ms s → Frames (m :: ms) (a :: b :: (m ++ s))

/-- The messages taken from connection number `i`, in order. -/
def asked (qs : List (Query Addr)) (i : Nat) : List (List Byte) := (qs.filter (fun q => q.id == i)).map (·.msg)

/-- The client has closed the connection or it has failed. -/
def Ends (l : List Arr) : Prop := .closed ∈ l ∨ .fail ∈ l

/-- The kernel's rules in a turn, the descriptors `others` being those open from the beginning (the listening sockets
among them): a new descriptor is not one that is open; arriving pieces are not empty; a connection is ready only if
something arrives on it. -/
def Rules (others : List Nat) (st : St Addr) (t : Turn Addr) : Prop :=
  (∀ s a l, t.acc = some (s, a, l) → s ∉ st.conns.map (·.1) ∧ s ∉ others ∧ .data [] ∉ l) ∧
  (∀ e ∈ st.conns, t.ready e.1 = true → e.2.todo ≠ [])

/-- The rules hold in every turn. -/
def Legal (left : Nat) (others : List Nat) (st : St Addr) : List (Turn Addr) → Prop
  | [] => True
  | t :: ts => Rules others st t ∧ ∀ st', step left st t = .go st' → Legal left others st' ts

/-- A turn takes the lowest descriptor that is free. -/
def Lowest (others : List Nat) (st : St Addr) (t : Turn Addr) : Prop :=
  ∀ s a l, t.acc = some (s, a, l) → ∀ u < s, u ∈ st.conns.map (·.1) ∨ u ∈ others

/-- Every turn does. -/
def AllLowest (left : Nat) (others : List Nat) (st : St Addr) : List (Turn Addr) → Prop
  | [] => True
  | t :: ts => Lowest others st t ∧ ∀ st', step left st t = .go st' → AllLowest left others st' ts

/-- The next bytes are `b`, all in one piece, and `l'` is what follows. -/
def Piece (l : List Arr) (b : List Byte) (l' : List Arr) : Prop :=
  b ≠ [] ∧ ∃ r k, l = .data (b ++ r) :: k ∧ l' = if r = [] then k else .data r :: k

/-- The message `m` is next, its two length bytes in one piece and the rest in one piece (or all in the same). -/
def Whole (l : List Arr) (m : List Byte) (l' : List Arr) : Prop :=
  ∃ (a b : Byte) (k : List Arr), Piece l [a, b] k ∧ a.toNat * 256 + b.toNat = m.length ∧ Piece k m l'

/-- The client sends whole messages of at most `left` bytes, and then is silent, closes, or fails. -/
inductive Steady (left : Nat) : List Arr → Prop where
  | silent : Steady left []
  | closed (l : List Arr) : Steady left (.closed :: l)
  | fail (l : List Arr) : Steady left (.fail :: l)
  | query {l l' : List Arr} {m : List Byte} : Whole l m l' → m.length ≤ left → Steady left l' → Steady left l

/-- The listening sockets of the lines that can be opened. -/
def listening : List Line → List Nat
  | [] => []
  | .opened s :: ls => s :: listening ls
  | _ :: ls => listening ls

end Verif.TcpFrontend
