import Verif.Model.StatPage
import Verif.Spec.Statistic
import Verif.Spec.ReplaceStr
/-! What the page of statistics should be. -/

namespace Verif.StatPage
open Statistic

/-- `pre` and `post` are what is before and behind the first occurrence of `marker` in the template `c`. -/
def Parts (c marker pre post : List Byte) : Prop :=
  c = pre ++ (marker ++ post) ∧ ∀ i, i < pre.length → ¬ ReplaceStr.Occurs marker c i

/-- The queries that are counted: those not made while the rows of a page are being written. -/
def tallied : List Ev → List (List Byte × Kind)
  | [] => []
  | .query d t :: es => (d, t) :: tallied es
  | .page _ before _ :: es => before ++ tallied es

/-- When pages are made. -/
def times : List Ev → List Nat
  | [] => []
  | .query _ _ :: es => times es
  | .page now _ _ :: es => now :: times es

/-- `t` has the word `key`, the character `c`, perhaps between blanks, and the number `n`. -/
def Gives (t key : List Byte) (c : Byte) (n : Nat) : Prop :=
  ∃ a x y ds b, t = a ++ (key ++ (List.replicate x 32 ++ c :: (List.replicate y 32 ++ (ds ++ b)))) ∧ (a.getLast? = some 32 ∨ a.getLast? = some 44) ∧
    IpText.DecNum ds n ∧ (b.head? = some 44 ∨ b.head? = some 59 ∨ b.head? = some 125)

/-- The text is a script that gives both times, the rows and the sums. -/
def Script (u : List Byte) (t0 now : Nat) (rows : List (List Byte × Info)) (sum : Info) : Prop :=
  ∃ a b : List Byte, ∃ ts : List (List Byte), u = str "<script type=\"text/javascript\">" ++ a ++ str "var InfoArray = [" ++ ts.flatten ++ str "];var Sum = {" ++ b ++ str "};</script>" ∧
    Gives a (str "StartUpTime") 61 t0 ∧ Gives a (str "LastStatistic") 61 now ∧
    ts.length = rows.length ∧ (∀ (k : Nat) t r, ts[k]? = some t → rows[k]? = some r → RowSays t r.1 r.2) ∧
    Gives (b ++ [125]) (str "Total") 58 sum.count ∧ Gives (b ++ [125]) (str "RaF") 58 sum.refused ∧ Gives (b ++ [125]) (str "Hosts") 58 sum.hosts ∧
    Gives (b ++ [125]) (str "Cache") 58 sum.cache ∧ Gives (b ++ [125]) (str "UDP") 58 sum.udp ∧ Gives (b ++ [125]) (str "TCP") 58 sum.tcp ∧
    Gives (b ++ [125]) (str "BlockedMsg") 58 sum.blocked

/-- The file is the template with the script for these queries in place of the marker. -/
def IsPage (file pre post : List Byte) (t0 now : Nat) (C : List (List Byte × Kind)) : Prop :=
  ∃ u, file = pre ++ (u ++ post) ∧ Script u t0 now (wantRows C) (tally C)

end Verif.StatPage
