import Verif.Model.Startup
import Verif.Spec.Config
import Verif.Spec.AddressList
import Verif.Spec.ReadLine
import Verif.Spec.HostsContainer
import Verif.Spec.IpMisc
/-! What the command line and the configuration of the program mean.  Of the model only the types are used. -/

namespace Verif.Startup
open Config

/-! ### The command line -/

/-- What a user can write, except for `-h` and `-p`. -/
inductive Arg where
  | quiet
  | debug
  | daemon
  | file (p : List Byte)
  | other (a : List Byte)
deriving DecidableEq

def Arg.words : Arg → List (List Byte)
  | .quiet => [str "-q"]
  | .debug => [str "-D"]
  | .daemon => [str "-d"]
  | .file p => [str "-f", p]
  | .other a => [a]

/-- Another word is none of the documented ones. -/
def Arg.Ok : Arg → Prop
  | .other a => a ∉ [str "-h", str "-q", str "-D", str "-d", str "-f", str "-p"]
  | _ => True

/-- The file that is named last, if one is. -/
inductive NamedFile : List Arg → Option (List Byte) → Prop
  | none {as : List Arg} : (∀ p, Arg.file p ∉ as) → NamedFile as none
  | last {as bs : List Arg} {p : List Byte} : (∀ q, Arg.file q ∉ bs) → NamedFile (as ++ .file p :: bs) (some p)

/-- The words that are not understood. -/
def others : List Arg → List (List Byte)
  | [] => []
  | .other a :: as => a :: others as
  | _ :: as => others as

/-! ### The documented options -/

/-- An option that has not been given: switches, numbers, texts, paths. -/
def switch (k : String) (b : Bool) : List Byte × Entry := (str k, .opt ⟨false, .default, [44], .bool b⟩)
def number (k : String) (n : Int) : List Byte × Entry := (str k, .opt ⟨false, .default, [44], .int n⟩)
def texts (k : String) (st : Strategy) (delims : String) (l : List String) : List Byte × Entry :=
  (str k, .opt ⟨false, st, str delims, .str (l.map str)⟩)
def paths (k : String) (st : Strategy) (l : List (List Byte)) : List Byte × Entry := (str k, .opt ⟨false, st, [44], .path l⟩)
def short (k : String) (pre : String) (delims : Option (List Byte)) : List Byte × Entry :=
  (str k, .alias (str "ServerGroup") (some (str pre)) delims)

/-- The options with their default values; `dir` is the directory of the program. -/
def table (dir : List Byte) : Table :=
  [switch "LogOn" false, number "LogFileThresholdLength" 102400, paths "LogFileFolder" .replace [dir ++ str "/"],
   texts "UDPLocal" .discard "," ["127.0.0.1:53"], texts "TCPLocal" .discard "," [],
   texts "ServerGroup" .discard "\t " ["UDP", "1.2.4.8,114.114.114.114", "*", "on"],
   short "GroupFile" "FILE" (some []), short "UDPGroup" "UDP" none, short "TCPGroup" "TCP" none, short "TLSGroup" "TLS" none,
   switch "EnableUDPtoTCP" false, switch "EnableTCPtoUDP" false, number "TCPKeepAlive" 5,
   texts "BlockIP" .append "," [], switch "AP" false, texts "IPSubstituting" .append "\t ," [], paths "IPSubstitutingFile" .append [],
   switch "BlockNegativeResponse" false, switch "DomainStatistic" false,
   paths "DomainStatisticTempletFile" .replace [dir ++ str "/StatisticTemplate.html"],
   texts "StatisticInsertionPosition" .default "," ["<!-- INSERT HERE -->"], number "StatisticUpdateInterval" 60,
   paths "Hosts" .append [], number "HostsRetryInterval" 30, paths "HostsDownloadPath" .replace [dir ++ str "/hosts.txt"],
   texts "HostsScript" .replace "," [], texts "AppendHosts" .append "," [], switch "BlockIpv6WhenIpv4Exists" false,
   number "ModulesUpdateInterval" 18000, switch "ReloadDisabledList" true, switch "ReloadGroupFile" true,
   switch "ReloadIPSubstituting" true, switch "UseCache" true, switch "CacheParallel" false, number "CacheSize" 1048576,
   switch "MemoryCache" true, paths "CacheFile" .replace [dir ++ str "/cache"], switch "IgnoreTTL" false, number "OverrideTTL" (-1),
   number "MultipleTTL" 1, texts "CacheControl" .append "," [], switch "ReloadCache" false, switch "OverwriteCache" false,
   texts "DisabledType" .append "," [], texts "DisabledDomain" .append "," [], paths "DisabledList" .append [],
   texts "GoodIPList" .append "," [], texts "GoodIPListAddIP" .append "," []]

/-- In this table the option `k` has the value `v`. -/
def Holds (tab : Table) (k : String) (v : Val) : Prop := ∃ i o, Finds tab (str k) i (.opt o) ∧ o.val = v

/-! ### Values -/

/-- The numbers of a list of texts. -/
inductive Numbers : List (List Byte) → List Int → Prop
  | nil : Numbers [] []
  | cons {s : List Byte} {n : Int} {ss : List (List Byte)} {ns : List Int} : Number s n → Numbers ss ns → Numbers (s :: ss) (n :: ns)

/-- The addresses these texts stand for; the port is 53 if none is given. -/
inductive Sockets : List (List Byte) → List AddressList.Sock → Prop
  | nil : Sockets [] []
  | cons {s a : List Byte} {f : IpText.Family} {p : Nat} {ts : List (List Byte)} {ss : List AddressList.Sock} :
      AddressList.ServerText 53 s f a p → Sockets ts ss → Sockets (s :: ts) (⟨f, some a, p⟩ :: ss)

/-- What is to be seen of the lines of the file `p`, with a buffer of `n` bytes; nothing, if it cannot be read. -/
inductive FileLines (file : List Byte → Option (List Byte)) (n : Nat) (p : List Byte) : List (List Byte) → Prop
  | missing : file p = none → FileLines file n p []
  | read {ss ts : List (List Byte)} {last : List Byte} : file p = some (ReadLine.text ss last) → ReadLine.Seen n (ss ++ [last]) ts → FileLines file n p ts

inductive FilesLines (file : List Byte → Option (List Byte)) (n : Nat) : List (List Byte) → List (List (List Byte)) → Prop
  | nil : FilesLines file n [] []
  | cons {p : List Byte} {ps ts : List (List Byte)} {tss : List (List (List Byte))} : FileLines file n p ts → FilesLines file n ps tss →
      FilesLines file n (p :: ps) (ts :: tss)

/-- The hosts of the downloaded file: none if no source is configured, the script has no name, or the interval is
negative. -/
inductive Dynamic (w : World) (tab : Table) : List Hosts.Entry → Prop
  | noHosts : Holds tab "Hosts" (.path []) → Dynamic w tab []
  | noScript {s : List Byte} {l : List (List Byte)} : Holds tab "HostsScript" (.str (s :: l)) → w.expandTo s = none → Dynamic w tab []
  | negative {n : Int} : Holds tab "HostsRetryInterval" (.int n) → n < 0 → Dynamic w tab []
  | file {f : List Byte} {hosts l ts : List (List Byte)} {es : List Hosts.Entry} : Holds tab "Hosts" (.path hosts) → hosts ≠ [] →
      Holds tab "HostsDownloadPath" (.path (f :: l)) → FileLines w.file 320 f ts → Hosts.Lines ts es → Dynamic w tab es

/-! ### Blocked and substituted addresses -/

/-- The text of an address, of either family, and its bytes. -/
inductive AddressText : Bool → List Byte → List Byte → Prop
  | v4 {s : List Byte} {a b c d : Byte} : IpText.V4Text s a.toNat b.toNat c.toNat d.toNat → AddressText false s [a, b, c, d]
  | v6 {s x : List Byte} {vs : List Nat} : IpText.V6Text s vs → IpText.V6Bytes x vs → AddressText true s x

/-- `BlockIP t`. -/
def Blocks (t : List Byte) (e : IpChunk.Entry) : Prop := e.text = t ∧ IpChunk.RangeText t e.range ∧ e.type = 1 ∧ e.data = none

/-- `IPSubstituting ip,sub`. -/
def Substitutes (ip sub : List Byte) (e : IpChunk.Entry) : Prop :=
  e.text = ip ∧ IpChunk.RangeText ip e.range ∧ e.type = 2 ∧ ∃ x, e.data = some x ∧ AddressText e.range.six sub x

inductive AllBlock : List (List Byte) → List IpChunk.Entry → Prop
  | nil : AllBlock [] []
  | cons {t : List Byte} {ts : List (List Byte)} {e : IpChunk.Entry} {es : List IpChunk.Entry} : Blocks t e → AllBlock ts es → AllBlock (t :: ts) (e :: es)

/-- The values of `IPSubstituting`, two by two; one that is left over has no effect. -/
inductive AllPairs : List (List Byte) → List IpChunk.Entry → Prop
  | nil : AllPairs [] []
  | odd {a : List Byte} : AllPairs [a] []
  | cons {a b : List Byte} {ts : List (List Byte)} {e : IpChunk.Entry} {es : List IpChunk.Entry} : Substitutes a b e → AllPairs ts es →
      AllPairs (a :: b :: ts) (e :: es)

def Blanks (s : List Byte) : Prop := ∀ c ∈ s, c = 32 ∨ c = 9
def Solid (s : List Byte) : Prop := s ≠ [] ∧ ∀ c ∈ s, ¬ (c = 32 ∨ c = 9)

/-- The lines of an `IPSubstitutingFile`: two words, and whatever; a line with one word has no effect. -/
inductive AllLines : List (List Byte) → List IpChunk.Entry → Prop
  | nil : AllLines [] []
  | word {p a q : List Byte} {ts : List (List Byte)} {es : List IpChunk.Entry} : Blanks p → Solid a → Blanks q → AllLines ts es →
      AllLines ((p ++ (a ++ q)) :: ts) es
  | cons {p a q b r : List Byte} {ts : List (List Byte)} {e : IpChunk.Entry} {es : List IpChunk.Entry} : Blanks p → Solid a → Blanks q → q ≠ [] →
      Solid b → (r = [] ∨ ∃ c r', r = c :: r' ∧ (c = 32 ∨ c = 9)) → Substitutes a b e → AllLines ts es →
      AllLines ((p ++ (a ++ (q ++ (b ++ r)))) :: ts) (e :: es)

end Verif.Startup
