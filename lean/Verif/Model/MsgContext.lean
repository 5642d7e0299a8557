import Verif.Model.CBase
/-! Model of the reply path of `iheader.c`. -/

namespace Verif.Msg

/-- iheader.h 13-37 `IHeader` followed by the message (`IHEADER_TAIL`).  `back = none` is
`BackAddress.family == AF_UNSPEC`.  `entity` is the first `EntityLength` bytes behind the header.
`Addr` is the type of socket addresses, sockets are numbers.  `Parent`, `RequestTcp`, `Timestamp` are
modelled where they are used. -/
structure Ctx (Addr : Type) where
  back : Option Addr
  sock : Nat
  domain : List Byte
  hash : UInt32
  type : Nat
  returnHeader : Bool
  edns : Bool
  agent : List Byte
  entity : List Byte
deriving DecidableEq, Repr

/-- What reaches the network: bytes on a TCP stream, or a datagram (`withHeader`: preceded by the raw
`IHeader`, used only between parts of this program). -/
inductive Sent (Addr : Type) where
  | tcp (sock : Nat) (bytes : List Byte)
  | udp (sock : Nat) (addr : Addr) (withHeader : Bool) (bytes : List Byte)
deriving DecidableEq, Repr

variable {Addr : Type}

/-- dnsgenerator.h 10 `SET_16_BIT_U_INT`: big endian, the value is cut to 16 bits. -/
def be16 (n : Nat) : List Byte := [UInt8.ofNat (n / 256), UInt8.ofNat n]

/-- iheader.c 145-150 `MsgContext_IsBlocked` (`ap`: the active-protection option). -/
def isBlocked (ap : Bool) (m : Ctx Addr) : Bool := ap && !m.edns

/-- iheader.c 152-157 `MsgContext_IsFromTCP`. -/
def isFromTcp (m : Ctx Addr) : Bool := m.back.isNone

/-- iheader.c 159-206 `MsgContext_SendBack`.  Simplification: `send`/`sendto` take the whole message
(a short or failed send only changes the return value). -/
def sendBack (m : Ctx Addr) : Sent Addr :=
  match m.back with
  | none => .tcp m.sock (be16 m.entity.length ++ m.entity)
  | some a => .udp m.sock a m.returnHeader m.entity

/-- dnsparser.h 92-127 (little-endian layout): the byte with QR (bit 7). -/
def setQR (b : Byte) : Byte := b ||| 0x80

/-- dnsparser.h 92-127: RA (bit 7) set, RCODE (bits 0-3) cleared. -/
def setRAclearRcode (b : Byte) : Byte := (b ||| 0x80) &&& 0xF0

/-- iheader.c 208-216: the header flags of a refused message. -/
def refuse (e : List Byte) : List Byte := (e.modify 2 setQR).modify 3 setRAclearRcode

/-- iheader.c 208-219 `MsgContext_SendBackRefusedMessage`. -/
def sendBackRefused (m : Ctx Addr) : Sent Addr := sendBack { m with entity := refuse m.entity }

end Verif.Msg
