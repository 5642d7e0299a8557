import Verif.Model.CBase
/-! How a peer reads DNS messages from a TCP stream (RFC 1035 4.2.2), independent of the code. -/

namespace Verif.Tcp

/-- Read one message: a two-byte big-endian length, then that many bytes. -/
def readOne : List Byte → Option (List Byte × List Byte)
  | a :: b :: rest =>
    let n := a.toNat * 256 + b.toNat
    if n ≤ rest.length then some (rest.take n, rest.drop n) else none
  | _ => none

/-- Read `k` messages; the result is the messages and the unread rest. -/
def readMany : Nat → List Byte → Option (List (List Byte) × List Byte)
  | 0, s => some ([], s)
  | k + 1, s =>
    match readOne s with
    | none => none
    | some (m, s') =>
      match readMany k s' with
      | none => none
      | some (ms, s'') => some (m :: ms, s'')

end Verif.Tcp
