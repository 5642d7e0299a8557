import Verif.Model.TcpUp
import Verif.Spec.AddressList
import Verif.Spec.StringList
/-! What the texts of servers and proxies of a TCP group mean.  Of the model only the data types are used. -/

namespace Verif.TcpUp
open AddressList IpText

/-- The addresses among these texts are `l`; the port is `dflt` if none is given. -/
inductive Texts (dflt : Nat) : List (List Byte) → List Sock → Prop where
  | nil : Texts dflt [] []
  | cons {t a : List Byte} {f : Family} {p : Nat} {ts : List (List Byte)} {l : List Sock} (h : ServerText dflt t f a p) (hs : Texts dflt ts l) :
      Texts dflt (t :: ts) (⟨f, some a, p⟩ :: l)
  | skip {t : List Byte} {ts : List (List Byte)} {l : List Sock} (h : NotAnAddress t) (hs : Texts dflt ts l) : Texts dflt (t :: ts) l

/-- The text names the addresses `l`, separated by commas or spaces. -/
def Names (dflt : Nat) (text : List Byte) (l : List Sock) : Prop :=
  ∃ ps ts, StringList.Split (str ", ") text ps ∧ StringList.Trims (str "\t .") ps ts ∧ Texts dflt ts l

/-- A text that can be a line of the configuration. -/
def Line (text : List Byte) : Prop := (0 : Byte) ∉ text ∧ text.length < 100000000

/-- There are no proxies, or they are `l`. -/
def Proxies : Option (List Byte) → Option (List Sock) → Prop
  | none, none => True
  | some t, some l => Line t ∧ Names 1080 t l
  | _, _ => False

/-- What an action of a group with the servers `l` and the proxies `ps` may ask of the system: connections are begun to the proxies,
if there are any, and else to the servers, with a socket of the address's own family; a proxy is asked for a server; queries are
for servers. -/
def Right (l : List Sock) (ps : Option (List Sock)) : TcpPool.Act → Option Call → Prop
  | .conn s _ i, c => ∃ to, (ps.getD l)[i]? = some to ∧ c = some (.connect s to.family to)
  | .prep s i _, c => ps ≠ none ∧ ∃ to ip, l[i]? = some to ∧ to.addr = some ip ∧ c = some (.ask s ⟨ip, to.port⟩)
  | .send _ i _ _, c => i < l.length ∧ c = none
  | _, c => c = none

end Verif.TcpUp
