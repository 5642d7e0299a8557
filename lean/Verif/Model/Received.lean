import Verif.Model.CBase
/-! What `recvfrom` puts into the buffers of the workers (udpm.c 84, 173-181; udpfrontend.c 22, 64-71; iheader.h 6-46). -/

namespace Verif.Received

/-- `sizeof(IHeader)` (LP64): two pointers' worth of `Parent` and `RequestTcp`, `Timestamp` 8, `BackAddress` 32, `SendBackSocket` 4, `Domain` 256, `HashValue`, `Type`,
`ReturnHeader`, `EDNSEnabled`, `EntityLength` 4 each, `Agent` 48, `TcpLengthRaw` 2, and 6 to the next multiple of 8. -/
def headerSize : Nat := 16 + 8 + 32 + 4 + 256 + 5 * 4 + 48 + 2 + 6

/-- `LEFT_LENGTH`: what is left of `SOCKET_CONTEXT_LENGTH` (4096). -/
def room : Nat := 4096 - headerSize

/-- A datagram in the buffer: what does not fit is lost, and `recvfrom` does not say so. -/
def received (datagram : List Byte) : List Byte := datagram.take room

end Verif.Received
