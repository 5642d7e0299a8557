import Verif.Model.Startup
/-! Updates of a running program: what is read again after the hosts were downloaded (dynamichosts.c 119-163). -/

namespace Verif.Startup
open Config

/-- dynamichosts.c 167-237 `DynamicHosts_Init`: whether the task that updates is made. -/
def scheduled (w : World) (c : Cfg) : Option Bool :=
  match getS c (str "Hosts"), getRaw c (str "HostsScript"), getI c (str "HostsRetryInterval") with
  | some hosts, some script, some retry => some (hosts.isSome && !script.any (fun s => (w.expandTo s).isNone) && decide (0 ≤ retry))
  | _, _, _ => none

/-- dynamichosts.c 42-103 `DynamicHosts_Load`: the table afterwards.  If the file cannot be opened it stays as it is. -/
def hostsAgain (w : World) (c : Cfg) (old : Option Hosts.Cont) : Option (Option Hosts.Cont) :=
  match getRaw c (str "HostsDownloadPath") with
  | some (some f) =>
    match w.file f with
    | none => some old
    | some content => (ReadLine.readFile 320 content).bind fun ls => (Hosts.loadAll Hosts.initCont ls).map some
  | _ => none

/-- filter.c 216-244, 267-274 `Filter_Update`. -/
def domainsAgain (w : World) (c : Cfg) (old : Option (StringChunk.Chunk Unit)) : Option (Option (StringChunk.Chunk Unit)) :=
  match getB c (str "ReloadDisabledList") with
  | none => none
  | some false => some old
  | some true =>
    match getS c (str "DisabledDomain"), (getS c (str "DisabledList")).bind (within (linesOf w 512)) with
    | some domains, some files => some (Filter.initDomains domains files)
    | _, _ => none

/-- ipmisc.c 239-353, 375-381 `IpMiscMapping_Update`.  Without any option nothing is changed (252-255). -/
def miscAgain (w : World) (c : Cfg) (old : Option IpChunk.Chunk × Bool) : Option (Option IpChunk.Chunk × Bool) :=
  match getB c (str "ReloadIPSubstituting") with
  | none => none
  | some false => some old
  | some true =>
    match misc w c with
    | none => none
    | some (none, _) => some old
    | some (some l, negative) => some (some l, negative)

/-- mmgr.c 655-730, 785-792 `Modules_Update`.  `none` also if it fails: then the groups that were set up are freed while their threads run
(`Verif.Reload.failed_reload_unsafe`). -/
def groupsAgain (w : World) (c : Cfg) (old : Groups.Map) : Option Groups.Map :=
  match getB c (str "ReloadGroupFile") with
  | none => none
  | some false => some old
  | some true => (getS c (str "ServerGroup")).bind fun conf => Groups.load ⟨w.up, fun p => (w.expandTo p).map w.file⟩ (conf.getD [])

/-- dynamichosts.c 152-156: what queries meet after an update; `w` is the system when the files were downloaded and the script was run. -/
def update (w : World) (c : Cfg) (e : Pipeline.Env) : Option Pipeline.Env :=
  match hostsAgain w c e.hosts.dynamic, domainsAgain w c e.filter.domains, miscAgain w c (e.lists, e.blockNegative), groupsAgain w c e.groups with
  | some dynamic, some domains, some (lists, negative), some groups =>
    some { e with hosts := { e.hosts with dynamic := dynamic }, filter := { e.filter with domains := domains }, lists := lists,
                  blockNegative := negative, groups := groups }
  | _, _, _, _ => none

/-- One update after the other. -/
def updates (c : Cfg) (e : Pipeline.Env) : List World → Option Pipeline.Env
  | [] => some e
  | w :: ws => (update w c e).bind fun e => updates c e ws

/-- What queries meet in a program that was started in `w`, after updates in `ws` were due.  dynamichosts.c 214-235, timedtask.c: the task is done only if
it was made, and only once if the interval is not positive. -/
def live (w : World) (c : Cfg) (ws : List World) : Option Pipeline.Env :=
  (serve w c).bind fun r =>
    match scheduled w c, getI c (str "ModulesUpdateInterval") with
    | some false, _ => some r.env
    | some true, some n => updates c r.env (if n ≤ 0 then ws.take 1 else ws)
    | _, _ => none

end Verif.Startup
