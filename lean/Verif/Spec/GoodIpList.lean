import Verif.Model.GoodIpList
import Verif.Spec.IpText
/-! What the options `GoodIPList` and `GoodIPListAddIP` mean. -/

namespace Verif.GoodIpList
open IpText (DecNum V4Text)

/-- White space. -/
def Blank (s : List Byte) : Prop := ∀ c ∈ s, c = 32 ∨ (9 ≤ c ∧ c ≤ 13)

/-- A name for a list: at most 127 characters, no white space and none of `* ? [`. -/
def NameOk (n : List Byte) : Prop :=
  n ≠ [] ∧ n.length ≤ 127 ∧ ∀ c ∈ n, ¬ (c = 32 ∨ (9 ≤ c ∧ c ≤ 13)) ∧ c ≠ 42 ∧ c ≠ 63 ∧ c ≠ 91

/-- `GoodIPList NAME INTERVAL`: the text and what it says. -/
structure ListOpt where
  text : List Byte
  name : List Byte
  interval : Nat

/-- The text says it. -/
def ListOpt.Ok (o : ListOpt) : Prop :=
  ∃ pre sep num post, o.text = pre ++ (o.name ++ (sep ++ (num ++ post))) ∧ Blank pre ∧ Blank sep ∧ sep ≠ [] ∧ Blank post ∧
    NameOk o.name ∧ DecNum num o.interval ∧ 0 < o.interval ∧ o.interval < 2147483648

/-- `GoodIPListAddIP NAME IP:PORT`: the text and what it says. -/
structure IpOpt where
  text : List Byte
  name : List Byte
  ip : Byte × Byte × Byte × Byte
  port : Nat

/-- The text says it (the address has at most 15 characters, so there is no room for more than a few leading zeros). -/
def IpOpt.Ok (o : IpOpt) : Prop :=
  ∃ pre sep ip num post, o.text = pre ++ (o.name ++ (sep ++ (ip ++ 58 :: (num ++ post)))) ∧ Blank pre ∧ Blank sep ∧ sep ≠ [] ∧
    Blank post ∧ NameOk o.name ∧ V4Text ip o.ip.1.toNat o.ip.2.1.toNat o.ip.2.2.1.toNat o.ip.2.2.2.toNat ∧ ip.length ≤ 15 ∧
    DecNum num o.port ∧ o.port < 65536

/-- The bytes of the address. -/
def IpOpt.bytes (o : IpOpt) : List Byte := [o.ip.1, o.ip.2.1, o.ip.2.2.1, o.ip.2.2.2]

/-- The addresses configured for a list, in order. -/
def configured (lists : List ListOpt) (ips : List IpOpt) (n : List Byte) : List (List Byte) :=
  if n ∈ lists.map (·.name) then (ips.filter (fun o => o.name = n)).map IpOpt.bytes else []

/-- The system behaves: the descriptors it gives are different from each other and not too large for `select`. -/
def Sane (ts : List Try) : Prop := (ts.filterMap (·.sock)).Nodup ∧ ∀ t ∈ ts, ∀ s, t.sock = some s → s < 1024

/-- The attempt to connect was made and ended after `m` milliseconds, with a connection if `b`. -/
def Ended (t : Try) (m : Nat) (b : Bool) : Prop := (∃ s, t.sock = some s) ∧ t.nonBlock = true ∧ t.started = true ∧ t.reply = some (m, b)

/-- A history of checks: which list, what happened to the attempts, when the program looked. -/
def run (st : State) : List (Nat × List Try × Nat) → Option State
  | [] => some st
  | (k, ts, now) :: r => match check st k ts now with | none => none | some st => run st r

end Verif.GoodIpList
