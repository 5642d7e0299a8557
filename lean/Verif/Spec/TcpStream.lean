import Verif.Model.TcpStream
/-! Specifications for the exchange of bytes over TCP: what the peer sent, how it arrived, the framing of DNS over
TCP (RFC 1035, 4.2.2), and the messages of SOCKS5 (RFC 1928). -/

namespace Verif.TcpStream

/-- The bytes that arrive before an error, a delay that is too long, or the end of the stream. -/
def bytesOf : List Ev → List Byte
  | .data b :: l => b ++ bytesOf l
  | .again :: l => bytesOf l
  | _ => []

/-- Pieces are not empty. -/
def NoEmpty (l : List Ev) : Prop := Ev.data [] ∉ l

/-- Error numbers are those of the system (below 4096). -/
def Errnos (l : List Ev) : Prop := ∀ e, (Ev.fail e ∈ l ∨ Ev.late e ∈ l) → 0 < e ∧ e < 4096

/-- The next `n` bytes arrive in one piece. -/
def InOne : List Ev → Nat → Prop
  | .again :: l, n => InOne l n
  | .data b :: _, n => n ≤ b.length
  | _, _ => False

/-- What is to come when the next `n` bytes, all in one piece, have been read. -/
def after : List Ev → Nat → List Ev
  | .again :: l, n => after l n
  | .data b :: l, n => if n < b.length then .data (b.drop n) :: l else l
  | l, _ => l

/-- The next `n` bytes have arrived and can be read without waiting. -/
def AtHand : List Ev → Nat → Prop
  | .data b :: l, n => n ≤ b.length ∨ AtHand l (n - b.length)
  | _, n => n = 0

/-- Of the next `n` bytes, the number of those that arrive with the last piece. -/
def lastPiece : List Ev → Nat → Nat
  | .data b :: l, n => if n ≤ b.length then n else lastPiece l (n - b.length)
  | .again :: l, n => lastPiece l n
  | _, _ => 0

/-- `s` is the message `m` with its length in front, followed by `rest`. -/
def Framed (s m rest : List Byte) : Prop := ∃ a b : Byte, s = a :: b :: (m ++ rest) ∧ a.toNat * 256 + b.toNat = m.length

/-- Every `send` takes all it is given or nothing. -/
def AllOrNothing (l : List SendEv) (n : Nat) : Prop := ∀ k e r, SendEv.took k e r ∈ l → n ≤ k

/-- Errors of `send` have a number. -/
def SendErrnos (l : List SendEv) : Prop := ∀ e r, SendEv.fail e r ∈ l → 0 < e

/-- RFC 1928, 3 and 4: what a client without authentication sends to be connected to the host with the name `host`:
version 5, one method, "no authentication"; version 5, `CONNECT`, reserved, a name, its length, the name, the port. -/
def AsksFor (s host : List Byte) (port : Nat) : Prop :=
  ∃ n p q : Byte, s = [5, 1, 0] ++ ([5, 1, 0, 3, n] ++ host ++ [p, q]) ∧ n.toNat = host.length ∧ p.toNat * 256 + q.toNat = port

/-- RFC 1928, 3: the proxy agrees to "no authentication". -/
def agrees : List Byte := [5, 0]

/-- RFC 1928, 6: the proxy reports success; the address it uses is an IPv4 address, a name, or an IPv6 address,
followed by a port. -/
inductive Success : List Byte → Prop where
  | v4 (r : Byte) {a : List Byte} (h : a.length = 6) : Success ([5, 0, r, 1] ++ a)
  | name (r n : Byte) {a : List Byte} (h : a.length = n.toNat + 2) : Success ([5, 0, r, 3] ++ n :: a)
  | v6 (r : Byte) {a : List Byte} (h : a.length = 18) : Success ([5, 0, r, 4] ++ a)

end Verif.TcpStream
