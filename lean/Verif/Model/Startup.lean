import Verif.Model.Pipeline
import Verif.Model.Config
import Verif.Model.GoodIpList
import Verif.Model.AddressList
import Verif.Model.StatPage
/-! Model of `main.c`: the command line, the options and their defaults, and how the configuration becomes what
queries meet (`MMgr_Init`, mmgr.c 742-780, `Hosts_Init`, `DNSCache_Init`, ...), for Linux. -/

namespace Verif.Startup
open Config (Decl Cfg)
open AddressList (Sock)

/-! ### The command line -/

/-- main.c 29-33: what the command line sets. -/
structure Flags where
  file : Option (List Byte)
  quiet : Bool
  debug : Bool
  daemon : Bool
deriving DecidableEq, Repr

/-- How reading the command line ends: memory behind the end of `argv` is read; the help is printed, or the
directory is made, and the program ends; or it goes on, after complaining about some words. -/
inductive Parsed where
  | undef
  | help
  | prepare
  | run (o : Flags) (unknown : List (List Byte))
deriving DecidableEq, Repr

/-- main.c 367-443 `ArgParse`, from `argv[1]` on. -/
def args (o : Flags) (unknown : List (List Byte)) : List (List Byte) → Parsed
  | [] => .run o unknown
  | a :: r =>
    if a = str "-h" then .help
    else if a = str "-q" then args { o with quiet := true } unknown r
    else if a = str "-D" then args { o with debug := true } unknown r
    else if a = str "-d" then args { o with daemon := true } unknown r
    else if a = str "-f" then
      match r with
      | [] => .undef
      | f :: r => args { o with file := some f } unknown r
    else if a = str "-p" then .prepare
    else args o (unknown ++ [a]) r

/-- main.c 29-33: before. -/
def noFlags : Flags := ⟨none, false, false, false⟩

/-- main.c 432, 501-507, 226-230, 528: what is printed before the log is there, when the program does not go into the background: the complaints, who it is
(`who`: main.c 27, with the time of compilation), and the configuration file, which can be opened or not (`opened`). -/
def printed (who : List Byte) (_ : Flags) (unknown : List (List Byte)) (path : List Byte) (opened : Bool) : List (List Byte) :=
  unknown.map (fun a => str "Unrecognisable arg `" ++ a ++ str "'. Try `-h'.\n") ++
    [who, str "Please run `dnsforwarder -p' if something goes wrong.\n\n", str "Configure File : " ++ path ++ str "\n\n"] ++
    (if opened then [] else [str "WARNING: Cannot load configuration file : " ++ path ++
      str ". Default options will be used. Or use `-f' to specify other configure file.\n"]) ++ [str "\n"]

/-! ### Directories -/

/-- utils.c 633-654 `GetConfigDirectory`, for the answer of `getpwuid` (`none`: NULL, which is dereferenced; `some none`:
there is no home directory). -/
def configDir : Option (Option (List Byte)) → Option (List Byte)
  | none => none
  | some none => some []
  | some (some h) => some (h ++ str "/.dnsforwarder")

/-- main.c 489-499, 333-343 `GetDefaultConfigureFile`: into 320 bytes (`none` if they do not suffice). -/
def defaultFile (home : Option (Option (List Byte))) : Option (List Byte) :=
  match configDir home with
  | none => none
  | some d => if d.length + 7 + 1 ≤ 320 then some (d ++ str "/config") else none

/-- main.c 48-57, utils.c 1319-1333 `GetPathPart`: the directory of the configuration file. -/
def directoryOf (path : List Byte) : List Byte :=
  let p := path.take 1023
  match (p.reverse.dropWhile (· != 47)).reverse with
  | [] => str "./"
  | d => d

/-! ### The options -/

/-- main.c 59-222: the options `EnvironmentInit` declares; `dir` is the configuration directory. -/
def decls (dir : List Byte) : List Decl :=
  [.option (str "LogOn") .default (.bool false),
   .option (str "LogFileThresholdLength") .default (.int 102400),
   .option (str "LogFileFolder") .replace (.path (some (dir ++ str "/"))),
   .option (str "UDPLocal") .discard (.str none),
   .delims (str "UDPLocal") (str ","),
   .default (str "UDPLocal") (.str (some (str "127.0.0.1:53"))),
   .option (str "TCPLocal") .discard (.str none),
   .delims (str "TCPLocal") (str ","),
   .option (str "ServerGroup") .discard (.str none),
   .delims (str "ServerGroup") (str "\t "),
   .default (str "ServerGroup") (.str (some (str "UDP 1.2.4.8,114.114.114.114 * on"))),
   .alias (str "ServerGroup") (str "GroupFile") (some (str "FILE")) (some []),
   .alias (str "ServerGroup") (str "UDPGroup") (some (str "UDP")) none,
   .alias (str "ServerGroup") (str "TCPGroup") (some (str "TCP")) none,
   .alias (str "ServerGroup") (str "TLSGroup") (some (str "TLS")) none,
   .option (str "EnableUDPtoTCP") .default (.bool false),
   .option (str "EnableTCPtoUDP") .default (.bool false),
   .option (str "TCPKeepAlive") .default (.int 5),
   .option (str "BlockIP") .append (.str none),
   .option (str "AP") .default (.bool false),
   .option (str "IPSubstituting") .append (.str none),
   .delims (str "IPSubstituting") (str "\t ,"),
   .option (str "IPSubstitutingFile") .append (.path none),
   .option (str "BlockNegativeResponse") .default (.bool false),
   .option (str "DomainStatistic") .default (.bool false),
   .option (str "DomainStatisticTempletFile") .replace (.path (some (dir ++ str "/StatisticTemplate.html"))),
   .option (str "StatisticInsertionPosition") .default (.str (some (str "<!-- INSERT HERE -->"))),
   .option (str "StatisticUpdateInterval") .default (.int 60),
   .option (str "Hosts") .append (.path none),
   .option (str "HostsRetryInterval") .default (.int 30),
   .option (str "HostsDownloadPath") .replace (.path (some (dir ++ str "/hosts.txt"))),
   .option (str "HostsScript") .replace (.str none),
   .option (str "AppendHosts") .append (.str none),
   .option (str "BlockIpv6WhenIpv4Exists") .default (.bool false),
   .option (str "ModulesUpdateInterval") .default (.int 18000),
   .option (str "ReloadDisabledList") .default (.bool true),
   .option (str "ReloadGroupFile") .default (.bool true),
   .option (str "ReloadIPSubstituting") .default (.bool true),
   .option (str "UseCache") .default (.bool true),
   .option (str "CacheParallel") .default (.bool false),
   .option (str "CacheSize") .default (.int 1048576),
   .option (str "MemoryCache") .default (.bool true),
   .option (str "CacheFile") .replace (.path (some (dir ++ str "/cache"))),
   .option (str "IgnoreTTL") .default (.bool false),
   .option (str "OverrideTTL") .default (.int (-1)),
   .option (str "MultipleTTL") .default (.int 1),
   .option (str "CacheControl") .append (.str none),
   .option (str "ReloadCache") .default (.bool false),
   .option (str "OverwriteCache") .default (.bool false),
   .option (str "DisabledType") .append (.str none),
   .option (str "DisabledDomain") .append (.str none),
   .option (str "DisabledList") .append (.path none),
   .option (str "GoodIPList") .append (.str none),
   .option (str "GoodIPListAddIP") .append (.str none)]

/-! ### Loading -/

/-- The outside: the answer of `getpwuid`, the expansion of paths in the configuration file (`ExpandPath`, utils.c 917-961; it
depends on the directories `PROGRAMDIRECTORY` and `CONFIGFILEDIRECTORY`) and later (`ExpandPathTo`, 963-970; `none`: it
fails), the files that can be read, those that can be opened for writing, whether there is a pipe for the timer, whether a server group can be started, `inet_addr`, which addresses can be bound,
for which of these `listen` fails, whether the file of the cache can be used, whether `TryBindLocal` finds a port for the alias worker,
`(int)pow(log(n), 2)`, `fnmatch`, and the values of variables that were not assigned. -/
structure World where
  home : Option (Option (List Byte))
  expand : List Byte → List Byte → List Byte → List Byte
  expandTo : List Byte → Option (List Byte)
  file : List Byte → Option (List Byte)
  write : List Byte → Bool
  timer : Bool
  up : Groups.Proto → Groups.Args → Bool
  inet : List Byte → List Byte
  udp : Sock → Bool
  tcp : Sock → Bool
  stuck : Sock → Bool
  cacheFile : Bool
  inner : Bool
  logSquare : Nat → Nat
  fnm : List Byte → List Byte → Bool
  junk : Int
  junkIp : List Byte

/-- main.c 35-235 `EnvironmentInit`: the configuration; `none`: the buffer of 1024 bytes overflows, or reading is
undefined.  A file that cannot be opened leaves the defaults. -/
def environment (w : World) (path : List Byte) : Option Cfg :=
  match configDir w.home with
  | none => none
  | some dir =>
    if dir.length + 23 + 1 ≤ 1024 then
      match Config.declareAll 4 (Config.init bkdrHash) (decls dir) with
      | none => none
      | some c =>
        match w.file path with
        | none => some c
        | some content => Config.read (w.expand (dir ++ str "/") (directoryOf path)) 4 c content
    else none

def getB (c : Cfg) (k : List Byte) : Option Bool := Config.getBoolean c 4 k
def getI (c : Cfg) (k : List Byte) : Option Int := Config.getInt c 4 k

/-- readconfig.c 500-515 `ConfigGetStringList`: NULL (the inner `none`) if there are no strings. -/
def getS (c : Cfg) (k : List Byte) : Option (Option (List (List Byte))) :=
  (Config.getStrings c 4 k).map fun l => if l = [] then none else some l

/-- readconfig.c 481-498 `ConfigGetRawString`: the first string. -/
def getRaw (c : Cfg) (k : List Byte) : Option (Option (List Byte)) := (Config.getStrings c 4 k).map List.head?

/-- filter.c 193-196: the numbers among the strings. -/
def scanTypes : List (List Byte) → Option (List (Option Int))
  | [] => some []
  | s :: l =>
    match IpText.scanDec s with
    | .undef => none
    | .fail => (scanTypes l).map (none :: ·)
    | .ok n _ => (scanTypes l).map (some n :: ·)

/-- The lines of files that are read with a buffer of `n` bytes; one that cannot be opened has none. -/
def linesOf (w : World) (n : Nat) : List (List Byte) → Option (List (List (List Byte)))
  | [] => some []
  | p :: l =>
    match (match w.file p with | none => some [] | some c => ReadLine.readFile n c), linesOf w n l with
    | some ls, some r => some (ls :: r)
    | _, _ => none

/-- An `Option` inside. -/
def within {α β : Type} (f : α → Option β) : Option α → Option (Option β)
  | none => some none
  | some a => (f a).map some

/-- filter.c 246-265 `Filter_Init`. -/
def filter (w : World) (c : Cfg) : Option Filter.State :=
  match (getS c (str "DisabledType")).bind (within scanTypes), getS c (str "DisabledDomain"),
      (getS c (str "DisabledList")).bind (within (linesOf w 512)) with
  | some types, some domains, some files => some ⟨Filter.initTypes w.junk types, Filter.initDomains domains files⟩
  | _, _, _ => none

/-- utils.h 9-11, dnscache.c 27, cacheht.c 17-28 `CacheHT_CalculateSlotCount`: the sizes for a cache of `n` bytes, rounded
up to `size`.  Of `Cht_Slot` there are four bytes each, `struct _Header` has 128. -/
def slots (w : World) (size : Nat) : Nat :=
  let pre := if size < 1048576 then size / 4979 - 18 else w.logSquare size
  (pre + 5) / 10 * 10 + 7

/-- dnscache.c 215-361 `DNSCache_Init`: `Inited`, and the settings.  `none`: undefined, or it fails.  Simplified: the file of
the cache can be used or not. -/
def cache (w : World) (c : Cfg) : Option (Bool × DnsCache.Settings) :=
  match getI c (str "CacheSize"), getB c (str "UseCache"), getB c (str "CacheParallel"), getB c (str "IgnoreTTL"),
      getI c (str "OverrideTTL"), getI c (str "MultipleTTL"), getS c (str "CacheControl"), getB c (str "MemoryCache") with
  | some n, some use, some parallel, some ignore, some override, some multiple, some control, some memory =>
    if use = false then some (false, ⟨⟨0, 0, 0, false, false⟩, none, w.fnm⟩)
    else
      match CacheTtl.initRules control override multiple with
      | none => none
      | some rules =>
        if n + 15 > 2147483647 then none
        else
          let size := Int.tdiv (n + 15) 16 * 16
          if size < 102400 then none
          else if memory = false ∧ w.cacheFile = false then none
          else some (true, ⟨⟨size.toNat, slots w size.toNat, 128, ignore, parallel⟩, rules, w.fnm⟩)
  | _, _, _, _, _, _, _, _ => none

/-- ipmisc.c 284-302: strings taken in pairs. -/
def pairs : List (List Byte) → List IpMisc.Line
  | a :: b :: l => .subst a b :: pairs l
  | _ => []

/-- The first word of a line, up to a space or a tab, and what comes behind it. -/
def word (s : List Byte) : List Byte × List Byte :=
  let t := s.dropWhile (fun c => c == 32 || c == 9)
  (t.takeWhile (fun c => c != 32 && c != 9), t.dropWhile (fun c => c != 32 && c != 9))

/-- ipmisc.c 209-227: the first two words of a line. -/
def substLine (s : List Byte) : Option IpMisc.Line :=
  let a := word s
  let b := word a.2
  if b.1 = [] then none else some (.subst a.1 b.1)

/-- ipmisc.c 318-341: the files. -/
def substFiles (w : World) : List (List Byte) → Option (List IpMisc.Line)
  | [] => some []
  | p :: l =>
    match (match (w.expandTo p).bind w.file with | none => some [] | some c => ReadLine.readFile 512 c), substFiles w l with
    | some ls, some r => some (ls.filterMap substLine ++ r)
    | _, _ => none

/-- ipmisc.c 239-353 `IpMiscMapping_Load`: the lists (`none` inside: NULL) and `BlockNegativeResponse`. -/
def misc (w : World) (c : Cfg) : Option (Option IpChunk.Chunk × Bool) :=
  match getS c (str "BlockIP"), getS c (str "IPSubstituting"), getS c (str "IPSubstitutingFile"), getB c (str "BlockNegativeResponse") with
  | some block, some subst, some files, some negative =>
    if block = none ∧ subst = none ∧ files = none ∧ negative = false then some (none, false)
    else
      match substFiles w (files.getD []) with
      | none => none
      | some more =>
        (IpMisc.load .init ((block.getD []).map .block ++ pairs (subst.getD []) ++ more)).map fun l => (some l, negative)
  | _, _, _, _ => none

/-- statichosts.c 13-49 `StaticHosts_Init` (`none` inside: `Inited` is false). -/
def staticHosts (c : Cfg) : Option (Option Hosts.Cont) :=
  (getS c (str "AppendHosts")).bind (within (Hosts.loadAll Hosts.initCont))

/-- dynamichosts.c 167-237 `DynamicHosts_Init`: the table before the first update.  The interval in milliseconds has to fit an `int`. -/
def dynamicHosts (w : World) (c : Cfg) : Option (Option Hosts.Cont) :=
  match getS c (str "Hosts"), getRaw c (str "HostsScript"), getRaw c (str "HostsDownloadPath"), getI c (str "HostsRetryInterval"),
      getI c (str "ModulesUpdateInterval") with
  | some hosts, some script, some file, some retry, some interval =>
    if hosts = none then some none
    else if script.any (fun s => (w.expandTo s).isNone) then some none
    else if retry < 0 then some none
    else if interval > 2147483 then none
    else
      match file with
      | none => none
      | some f =>
        match w.file f with
        | none => some none
        | some content => (ReadLine.readFile 320 content).bind fun ls => (Hosts.loadAll Hosts.initCont ls).map some
  | _, _, _, _, _ => none

/-- mmgr.c 742-780 `MMgr_Init`: what queries meet; `none`: undefined, or an error. -/
def load (w : World) (c : Cfg) : Option Pipeline.Env :=
  match getB c (str "EnableUDPtoTCP"), getB c (str "EnableTCPtoUDP"), getB c (str "AP"), getB c (str "BlockIpv6WhenIpv4Exists"),
      getS c (str "ServerGroup") with
  | some utot, some ttou, some ap, some block6, some conf =>
    match Groups.load ⟨w.up, fun p => (w.expandTo p).map w.file⟩ (conf.getD []) with
    | none => none
    | some groups =>
      match filter w c, cache w c, misc w c, staticHosts c, dynamicHosts w c, getS c (str "GoodIPList"), getS c (str "GoodIPListAddIP") with
      | some f, some (on, settings), some (lists, negative), some static, some dynamic, some names, some ips =>
        match GoodIpList.load bkdrHash names ips with
        | none => none
        | some (good, _) =>
          if w.inner then
            some { filter := f, hosts := ⟨static, dynamic, block6⟩
                   goodIp := fun n => (GoodIpList.get good n).map (·.getD w.junkIp)
                   cacheOn := on, cache := settings, groups := groups, opts := ⟨utot, ttou⟩, fnm := w.fnm, ap := ap
                   lists := lists, blockNegative := negative }
          else none
      | _, _, _, _, _, _, _ => none
  | _, _, _, _, _ => none

/-- udpfrontend.c 145-191, tcpfrontend.c 175-227: the addresses that are listened on.  With UDP nothing is `stuck`; with TCP an address
is if `listen` fails for it after `bind`, which ends the loop. -/
def listen (w : World) (ok stuck : Sock → Bool) : List (List Byte) → Option (List Sock)
  | [] => some []
  | s :: l =>
    match AddressList.convert w.inet s 53 with
    | .undef => none
    | .refused => listen w ok stuck l
    | .ok a => if ok a then (if stuck a then some [] else (listen w ok stuck l).map (a :: ·)) else listen w ok stuck l

/-- logs.c 30-79 `Log_Init`: whether it succeeds.  The name of the file has room for 255 bytes. -/
def logs (w : World) (c : Cfg) : Bool :=
  match getB c (str "LogOn"), getRaw c (str "LogFileFolder"), getI c (str "LogFileThresholdLength") with
  | some false, _, _ => true
  | some true, some (some f), some n => f.length + 17 < 256 && w.write (f ++ str "/dnsforwarder.log") && decide (0 < n)
  | _, _, _ => false

/-- domainstatistic.c 38-85, 207-262 `DomainStatistic_Init`: whether it succeeds.  Without a usable template there are no statistics.  The interval
in milliseconds has to fit an `int`. -/
def statistic (w : World) (c : Cfg) : Bool :=
  match getB c (str "DomainStatistic"), getI c (str "StatisticUpdateInterval"), getRaw c (str "DomainStatisticTempletFile"),
      getRaw c (str "StatisticInsertionPosition"), configDir w.home with
  | some false, _, _, _, _ => true
  | some true, some n, some f, some m, some dir =>
    if n < 1 then false
    else
      match f.bind w.file with
      | none => true
      | some content =>
        if content = [] then true
        else
          match m with
          | none => false
          | some m =>
            match StatPage.template content.length (some content) m with
            | .unusable => true
            | .undefined => false
            | .parts _ _ => w.write (dir ++ str "/statistic.html") && decide (n ≤ 2147483)
  | _, _, _, _, _ => false

/-- A running program. -/
structure Running where
  env : Pipeline.Env
  udp : List Sock
  tcp : List Sock

/-- main.c 507-584, the rest of `main`: what is listened on, and what queries meet. `none`: it is undefined, or it
ends. -/
def serve (w : World) (c : Cfg) : Option Running :=
  if logs w c = false ∨ w.timer = false ∨ statistic w c = false then none
  else
  match getS c (str "UDPLocal"), getS c (str "TCPLocal") with
  | some u, some t =>
    match listen w w.udp (fun _ => false) (u.getD []), listen w w.tcp w.stuck (t.getD []) with
    | some us, some ts => if us = [] ∧ ts = [] then none else (load w c).map (⟨·, us, ts⟩)
    | _, _ => none
  | _, _ => none

/-- main.c 456-584 `main`. -/
def main (w : World) (argv : List (List Byte)) : Option Running :=
  match args noFlags [] argv with
  | .run o _ =>
    match (match o.file with | some f => some f | none => defaultFile w.home) with
    | none => none
    | some path => (environment w path).bind (serve w)
  | _ => none

end Verif.Startup
