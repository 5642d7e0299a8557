import Verif.Model.Pipeline
import Verif.Model.IpText
/-! Model of the exchange of bytes with TCP servers and SOCKS5 proxies (tcpm.c). -/

namespace Verif.TcpStream
open Msg

/-- What the next `recv` on a non-blocking socket meets: bytes that have arrived (at least one); an error that is
not fatal (utils.c 1054-1069), after which the socket becomes readable within the allowed time (`again`) or does
not (`late`); a fatal error; or the end of the stream. -/
inductive Ev where
  | data (b : List Byte)
  | again
  | late (e : Nat)
  | fail (e : Nat)
  | closed
deriving DecidableEq, Repr

/-- What `recv` returns: bytes (none at the end of the stream), or -1 with an error number. -/
inductive Got where
  | bytes (b : List Byte)
  | again
  | late (e : Nat)
  | fatal (e : Nat)
deriving DecidableEq, Repr

/-- `recv` of at most `n` bytes; with nothing more to come it waits in vain (`EAGAIN`, 11).  A piece that is longer
than `n` stays with its rest. -/
def recv (l : List Ev) (n : Nat) : Got × List Ev :=
  match l with
  | [] => (.late 11, [])
  | .data b :: l => if b.length ≤ n then (.bytes b, l) else (.bytes (b.take n), .data (b.drop n) :: l)
  | .again :: l => (.again, l)
  | .late e :: l => (.late e, l)
  | .fail e :: l => (.fatal e, l)
  | .closed :: l => (.bytes [], .closed :: l)

/-- tcpm.c 267-285 `TcpM_RecvWrapper`: the returned number, the bytes written to the buffer, and what is to come. -/
def recvWrapper (l : List Ev) (n : Nat) : Int × List Byte × List Ev :=
  match l with
  | .again :: l => recvWrapper l n
  | l =>
    match recv l n with
    | (.bytes b, l) => (b.length, b, l)
    | (.again, l) => (-11, [], l)
    | (.late e, l) => (-(e : Int), [], l)
    | (.fatal e, l) => (-(e : Int), [], l)

/-- tcpm.c 656-662: the loop that reads the message; `n` is `TCPLength` (16 bits), `acc` what has been read.  The
last returned number, what is left of `TCPLength`, the bytes read, and what is to come.  Every round but the last
takes a byte, so `n + 1` rounds are enough. -/
def bodyLoop : Nat → List Ev → Nat → List Byte → Int × Nat × List Byte × List Ev
  | 0, l, n, acc => (0, n, acc, l)
  | k + 1, l, n, acc =>
    match recvWrapper l n with
    | (s, b, l) =>
      let n' := (((n : Int) - s) % 65536).toNat
      if 0 < s ∧ 0 < n' then bodyLoop k l n' (acc ++ b) else (s, n', acc ++ b, l)

/-- How reading from a server ends: without the two length bytes (the number `TcpM_RecvWrapper` returned), with a
length that is too large, with a message that is not complete – the connection is closed in these cases –, or with
the bytes put into the buffer and the length taken for that of the message. -/
inductive Received where
  | short (s : Int)
  | tooLarge
  | bad
  | message (b : List Byte) (len : Nat)
deriving DecidableEq, Repr

/-- tcpm.c 624-685: reading a message from a server; `left` is `LEFT_LENGTH`, the room for it.  The length given to
`IHeader_Fill` is `State`, the number returned last. -/
def receive (left : Nat) (l : List Ev) : Received × List Ev :=
  match recvWrapper l 2 with
  | (s, b, l) =>
    if s ≠ 2 then (.short s, l)
    else
      let n := (b.getD 0 0).toNat * 256 + (b.getD 1 0).toNat
      if left < n then (.tooLarge, l)
      else
        match bodyLoop (n + 1) l n [] with
        | (s, n', b, l) => if n' ≠ 0 then (.bad, l) else (.message b s.toNat, l)

/-- tcpm.c 624-734: what a module does with what it reads from a connection; `old` is what its buffer held.  If no
message is read nothing is answered (for the retry see `TcpPool`). -/
def serve {Addr : Type} (e : Pipeline.Env) (left : Nat) (old : List Byte) (l : List Ev) (fuel : Nat) (behindName : List Byte)
    (clock : Nat → Int) (d : Pipeline.Module Addr) :
    Option (Pipeline.Module Addr × List Cache.Op × List (Ctx Addr)) :=
  match (receive left l).1 with
  | .message b len => Pipeline.respond e (b ++ old.drop b.length) len fuel behindName clock d
  | _ => some (d, [], [])

/-- What the next `send` meets: the kernel takes at most `k` bytes; or an error.  `e` is the error number found
afterwards – after a `send` that took something it is left over from an earlier call –, `ready` whether the
socket is writable again in time. -/
inductive SendEv where
  | took (k e : Nat) (ready : Bool)
  | fail (e : Nat) (ready : Bool)
deriving DecidableEq, Repr

/-- utils.c 1054-1069 `FatalErrorDecideding` (Linux: `EINTR` 4, `EAGAIN` 11, `EINPROGRESS` 115). -/
def fatal (e : Nat) : Bool := !(e == 4 || e == 11 || e == 115)

/-- tcpm.c 247-265 `TcpM_SendWrapper`: the returned number, the bytes put on the stream, and what later calls
meet.  After a `send` that took only a part the whole message is sent again. -/
def sendWrapper (l : List SendEv) (m : List Byte) : Int × List Byte × List SendEv :=
  match l with
  | [] => (-11, [], [])
  | .took k e ready :: l =>
    if m.length ≤ k then (m.length, m, l)
    else if fatal e || !ready then (-(e : Int), m.take k, l)
    else
      match sendWrapper l m with
      | (s, b, l) => (s, m.take k ++ b, l)
  | .fail e ready :: l => if fatal e || !ready then (-(e : Int), [], l) else sendWrapper l m

/-- tcpm.c 396-398, 458-462: the message to a server, its length in front; whether it counts as sent. -/
def sendQuery (l : List SendEv) (entity : List Byte) : Bool × List Byte :=
  match sendWrapper l (be16 entity.length ++ entity) with
  | (s, b, _) => (0 ≤ s, b)

/-- utils.c 1243-1264 `ClearTCPSocketBuffer`: reads and forgets `n` bytes, in pieces of at most 128, and stops at the
first error.  Each round takes a byte, so `n` rounds are enough. -/
def clear : Nat → List Ev → Nat → List Ev
  | 0, l, _ => l
  | k + 1, l, n =>
    if n = 0 then l
    else
      match recv l (min 128 n) with
      | (.bytes b, l) => if b = [] then l else clear k l (n - b.length)
      | (_, l) => l

/-- The address of a server: its bytes (4 or 16) and its port. -/
structure Target where
  ip : List Byte
  port : Nat
deriving DecidableEq, Repr

/-- tcpm.c 320-327: the address as text (utils.c 550-631). -/
def Target.text (t : Target) : List Byte :=
  match t.ip with
  | [a, b, c, d] => IpText.v4ToAsc a b c d
  | l => IpText.v6ToAsc l

/-- tcpm.c 318-334: the request to connect. -/
def connectRequest (t : Target) : List Byte := [5, 1, 0, 3] ++ [UInt8.ofNat t.text.length] ++ t.text ++ be16 t.port

/-- `char` of a number (signed, 8 bits). -/
def toChar (n : Nat) : Int := if n % 256 < 128 then n % 256 else (n % 256 : Nat) - 256

/-- tcpm.c 360-379: the number of bytes to be skipped behind the proxy's reply, and what is to come; `none`: an
address type that is not known.  If the length byte cannot be read, the variable still holds the length of the text
sent before. -/
def replyTail (t : Target) (atyp : Byte) (l : List Ev) : Option (Int × List Ev) :=
  if atyp = 1 then some (6, l)
  else if atyp = 3 then
    match recvWrapper l 1 with
    | (_, b, l) => some (toChar ((b.headD (UInt8.ofNat t.text.length)).toNat + 2), l)
  else if atyp = 4 then some (18, l)
  else none

/-- tcpm.c 287-385 `TcpM_ProxyPreparation`: the returned number, the bytes sent to the proxy, and what is to come
from it. -/
def proxyPreparation (t : Target) (s : List SendEv) (l : List Ev) : Int × List Byte × List Ev :=
  match sendWrapper s [5, 1, 0] with
  | (n, o1, s) =>
    if n ≠ 3 then (-1, o1, l)
    else
      match recvWrapper l 2 with
      | (n, b, l) =>
        if n ≠ 2 then (-2, o1, l)
        else if b.getD 0 0 ≠ 5 ∨ b.getD 1 0 ≠ 0 then (-3, o1, l)
        else
          match sendWrapper s (connectRequest t) with
          | (n, o2, _) =>
            if n ≠ (4 + 1 + t.text.length + 2 : Nat) then (-4, o1 ++ o2, l)
            else
              match recvWrapper l 4 with
              | (n, b, l) =>
                if n ≠ 4 then (-9, o1 ++ o2, l)
                else if b.getD 1 0 ≠ 0 then (-10, o1 ++ o2, l)
                else
                  match replyTail t (b.getD 3 0) l with
                  | none => (-11, o1 ++ o2, l)
                  | some (n, l) => (0, o1 ++ o2, clear n.toNat l n.toNat)

end Verif.TcpStream
