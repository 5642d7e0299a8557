import Verif.Model.Statistic
import Verif.Spec.IpText
/-! What the statistics should say. -/

namespace Verif.Statistic

/-- The queries that are counted: those not made while a page is being written (`busy`: one is being written). -/
def counted : Bool → List Ev → List (List Byte × Kind)
  | _, [] => []
  | busy, .query d t :: es => if busy then counted busy es else (d, t) :: counted busy es
  | _, .start :: es => counted true es
  | _, .stop :: es => counted false es

/-- All queries. -/
def queries : List Ev → List (List Byte × Kind)
  | [] => []
  | .query d t :: es => (d, t) :: queries es
  | _ :: es => queries es

/-- The names, in the order of their first appearance. -/
def names (C : List (List Byte × Kind)) : List (List Byte) := C.foldl (fun l e => if e.1 ∈ l then l else l ++ [e.1]) []

/-- The numbers for these queries: those answered or refused, by kind, and the messages blocked. -/
def tally (C : List (List Byte × Kind)) : Info :=
  ⟨C.countP (fun e => e.2 ≠ .blocked), C.countP (fun e => e.2 = .refused), C.countP (fun e => e.2 = .hosts), C.countP (fun e => e.2 = .cache),
    C.countP (fun e => e.2 = .udp), C.countP (fun e => e.2 = .tcp), C.countP (fun e => e.2 = .blocked)⟩

/-- The rows for these queries: each name with its own numbers. -/
def wantRows (C : List (List Byte × Kind)) : List (List Byte × Info) :=
  (names C).map (fun d => (d, tally (C.filter (fun e => e.1 = d))))

/-- A name without the characters `* ? [`. -/
def Plain (d : List Byte) : Prop := ∀ c ∈ d, c ≠ 42 ∧ c ≠ 63 ∧ c ≠ 91

/-- Among the properties written in `t` there is `key`, with the value `n`. -/
def Says (t : List Byte) (key : List Byte) (n : Nat) : Prop :=
  ∃ a ds b, t = a ++ 44 :: (key ++ 58 :: (ds ++ b)) ∧ IpText.DecNum ds n ∧ (b.head? = some 44 ∨ b.head? = some 125)

/-- The row `t` is an object (followed by a comma) whose properties are the name and the numbers. -/
def RowSays (t : List Byte) (name : List Byte) (i : Info) : Prop :=
  ∃ u, t = str "{Domain:\"" ++ name ++ str "\"" ++ u ∧ u.getLast? = some 44 ∧ (34 : Byte) ∉ u ∧ Says u (str "Total") i.count ∧ Says u (str "RaF") i.refused ∧
    Says u (str "Hosts") i.hosts ∧ Says u (str "Cache") i.cache ∧ Says u (str "UDP") i.udp ∧ Says u (str "TCP") i.tcp ∧
    Says u (str "BlockedMsg") i.blocked

end Verif.Statistic
