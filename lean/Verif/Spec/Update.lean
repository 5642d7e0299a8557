import Verif.Spec.Startup
/-! What updates of a running program are to do. -/

namespace Verif.Startup
open Verif.Config

/-- There are updates: sources of hosts are configured, the script has a name if there is one, and the interval between attempts is not negative. -/
def Scheduled (w : World) (tab : Table) : Prop :=
  (∃ hosts, Holds tab "Hosts" (.path hosts) ∧ hosts ≠ []) ∧ (∀ s l, Holds tab "HostsScript" (.str (s :: l)) → w.expandTo s ≠ none) ∧
    ∃ n, Holds tab "HostsRetryInterval" (.int n) ∧ 0 ≤ n

/-- Of the updates `ws` that might be done, these are: none, the first, or all of them. -/
inductive Due (w : World) (tab : Table) (ws : List World) : List World → Prop
  | never : ¬ Scheduled w tab → Due w tab ws []
  | once {n : Int} : Scheduled w tab → Holds tab "ModulesUpdateInterval" (.int n) → n ≤ 0 → Due w tab ws (ws.take 1)
  | every {n : Int} : Scheduled w tab → Holds tab "ModulesUpdateInterval" (.int n) → 0 < n → Due w tab ws ws

/-- Files are those of the last update if the option `k` is set, else those of the start. -/
inductive As (w : World) (tab : Table) (k : String) : List World → World → Prop
  | start : As w tab k [] w
  | still {us : List World} : Holds tab k (.bool false) → As w tab k us w
  | again {us : List World} {v : World} : Holds tab k (.bool true) → As w tab k (us ++ [v]) v

/-- The hosts of the downloaded file as it was when it was last opened. -/
inductive HostsAfter (w : World) (tab : Table) : List World → List Hosts.Entry → Prop
  | start {es : List Hosts.Entry} : Dynamic w tab es → HostsAfter w tab [] es
  | same {us : List World} {v : World} {f : List Byte} {l : List (List Byte)} {es : List Hosts.Entry} : HostsAfter w tab us es →
      Holds tab "HostsDownloadPath" (.path (f :: l)) → v.file f = none → HostsAfter w tab (us ++ [v]) es
  | again {us : List World} {v : World} {f content : List Byte} {l ts : List (List Byte)} {es : List Hosts.Entry} :
      Holds tab "HostsDownloadPath" (.path (f :: l)) → v.file f = some content → FileLines v.file 320 f ts → Hosts.Lines ts es →
      HostsAfter w tab (us ++ [v]) es

end Verif.Startup
