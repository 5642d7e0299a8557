import Verif.Model.Groups
import Verif.Spec.StringChunk
import Verif.Spec.StringList
import Verif.Spec.ReadLine
/-! What a configuration of server groups says, and which group a query is for.  Of the model only the data types are
used. -/

namespace Verif.Groups
open StringChunk (IsPattern domainText Covers)
open StringList (Lowered Meaning)

/-! ### What is configured -/

/-- A group: its kind, what it is started with, the domains it is for. -/
structure Group where
  proto : Proto
  args : Args
  domains : List (List Byte)
deriving DecidableEq, Repr

/-- A group in the configuration file: `UDPGroup s d p`, `TCPGroup s d p x`, `GroupFile path`. -/
inductive Decl where
  | udp (s d p : List Byte)
  | tcp (s d p x : List Byte)
  | file (path : List Byte)
deriving DecidableEq, Repr

/-- The strings the option holds for it. -/
def Decl.tokens : Decl → List (List Byte)
  | .udp s d p => [str "UDP", s, d, p]
  | .tcp s d p x => [str "TCP", s, d, p, x]
  | .file p => [str "FILE", p]

/-- The domains meant by these texts: without blanks and dots around, in small letters; `del` separates. -/
def Domains (del : Option (List Byte)) (texts ds : List (List Byte)) : Prop :=
  Meaning [] (texts.map (fun t => .add t del) ++ [.trim (some (str "\t .")), .lower]) ds

/-- `udp`: the group of these values. -/
def UdpGroup (s p : List Byte) (ds : List (List Byte)) (g : Group) : Prop :=
  g.proto = .udp ∧ g.domains = ds ∧ g.args.services = s ∧ (g.args.parallel = true ↔ Lowered p (str "on")) ∧ g.args.proxies = none

def TcpGroup (s p x : List Byte) (ds : List (List Byte)) (g : Group) : Prop :=
  g.proto = .tcp ∧ g.domains = ds ∧ g.args.services = s ∧ (g.args.parallel = true ↔ Lowered p (str "on")) ∧
    (Lowered x (str "no") → g.args.proxies = none) ∧ (¬ Lowered x (str "no") → g.args.proxies = some x)

/-- A line of a group file, in small letters, is a setting or a domain. -/
inductive Item where
  | setting (key value : List Byte)
  | domain (d : List Byte)
deriving DecidableEq, Repr

def seps : List Byte := str " \t="

def blanks : List Byte := str " \t"

inductive IsItem : List Byte → Item → Prop
  | setting {k b v : List Byte} {x : Byte} : (∀ c ∈ k, c ∉ seps) → x ∈ seps → (∀ c ∈ b, c ∈ blanks) →
      (∃ c, v.head? = some c ∧ c ∉ blanks) → IsItem (k ++ x :: (b ++ v)) (.setting k v)
  | domain {d : List Byte} : (∀ c ∈ d, c ∉ seps) → IsItem d (.domain d)
  /-- A setting without a value counts as a domain. -/
  | empty {k b : List Byte} {x : Byte} : (∀ c ∈ k, c ∉ seps) → x ∈ seps → (∀ c ∈ b, c ∈ blanks) → IsItem (k ++ x :: b) (.domain k)

/-- The lines `ts` of a file are the items `is`. -/
inductive Items : List (List Byte) → List Item → Prop
  | nil : Items [] []
  | cons {t u : List Byte} {i : Item} {ts : List (List Byte)} {is : List Item} : Lowered t u → IsItem u i → Items ts is → Items (t :: ts) (i :: is)

def domainsOf : List Item → List (List Byte)
  | [] => []
  | .domain d :: is => d :: domainsOf is
  | .setting _ _ :: is => domainsOf is

/-- The last value given to a key. -/
def Value (is : List Item) (key v : List Byte) : Prop :=
  ∃ a b, is = a ++ .setting key v :: b ∧ ∀ w, .setting key w ∉ b

def NoValue (is : List Item) (key : List Byte) : Prop := ∀ w, .setting key w ∉ is

/-- The value, or a default one. -/
def ValueOr (is : List Item) (key dflt v : List Byte) : Prop := Value is key v ∨ (NoValue is key ∧ v = dflt)

/-- What is to be seen of a file, with a buffer of 384 bytes. -/
def Reads (content : List Byte) (ts : List (List Byte)) : Prop :=
  ∃ ss last, content = ReadLine.text ss last ∧ ReadLine.Seen 384 (ss ++ [last]) ts

/-- The domains of the list a group file names; `none` if its path is no path. -/
inductive ListOf (w : World) (is : List Item) : Option (List (List Byte)) → Prop
  | none : NoValue is (str "list") → ListOf w is (some [])
  | bad {p : List Byte} : Value is (str "list") p → w.file p = none → ListOf w is none
  | missing {p : List Byte} : Value is (str "list") p → w.file p = some none → ListOf w is (some [])
  | list {p content : List Byte} {ts ds : List (List Byte)} : Value is (str "list") p → w.file p = some (some content) → Reads content ts →
      ts.length = ds.length → (∀ (i : Nat) (t d : List Byte), ts[i]? = some t → ds[i]? = some d → Lowered t d) → ListOf w is (some ds)

/-- The groups of a file with these items and domains; `none` if something is missing. -/
inductive FileGroups (is : List Item) (proto : List Byte) (ds : List (List Byte)) : Option (List Group) → Prop
  | empty : ds = [] → FileGroups is proto ds (some [])
  | udp {s p : List Byte} {g : Group} : ds ≠ [] → proto = str "udp" → Value is (str "server") s →
      ValueOr is (str "parallel") (str "on") p → UdpGroup s p ds g → FileGroups is proto ds (some [g])
  | tcp {s p x : List Byte} {g : Group} : ds ≠ [] → proto = str "tcp" → Value is (str "server") s →
      ValueOr is (str "parallel") (str "on") p → ValueOr is (str "proxy") (str "no") x → TcpGroup s p x ds g → FileGroups is proto ds (some [g])
  | both {s p x : List Byte} {g g' : Group} : ds ≠ [] → proto = str "*" → Value is (str "server") s →
      ValueOr is (str "parallel") (str "on") p → ValueOr is (str "proxy") (str "no") x → UdpGroup s p ds g → TcpGroup s p x ds g' →
      FileGroups is proto ds (some [g, g'])
  | server : ds ≠ [] → NoValue is (str "server") → FileGroups is proto ds none
  | unknown : ds ≠ [] → proto ∉ [str "udp", str "tcp", str "*"] → FileGroups is proto ds none

/-- The groups a declaration stands for; `none` if it is wrong. -/
inductive Means (w : World) : Decl → Option (List Group) → Prop
  | udp {s d p : List Byte} {ds : List (List Byte)} {g : Group} : Domains (some (str ",")) [d] ds → UdpGroup s p ds g → Means w (.udp s d p) (some [g])
  | tcp {s d p x : List Byte} {ds : List (List Byte)} {g : Group} : Domains (some (str ",")) [d] ds → TcpGroup s p x ds g →
      Means w (.tcp s d p x) (some [g])
  | badFile {p : List Byte} : w.file p = none → Means w (.file p) none
  | noFile {p : List Byte} : w.file p = some none → Means w (.file p) (some [])
  | noProto {p content : List Byte} {ts : List (List Byte)} {is : List Item} : w.file p = some (some content) → Reads content ts → Items ts is →
      NoValue is (str "protocol") → Means w (.file p) none
  | badList {p content : List Byte} {ts : List (List Byte)} {is : List Item} : w.file p = some (some content) → Reads content ts → Items ts is →
      ListOf w is none → Means w (.file p) none
  | file {p content proto : List Byte} {ts more ds : List (List Byte)} {is : List Item} {r : Option (List Group)} :
      w.file p = some (some content) → Reads content ts → Items ts is → Value is (str "protocol") proto → ListOf w is (some more) →
      Domains none (domainsOf is ++ more) ds → FileGroups is proto ds r → Means w (.file p) r

/-- A file a declaration uses: the one it names, or the list that one names. -/
def Uses (w : World) (d : Decl) (p : List Byte) : Prop :=
  d = .file p ∨ ∃ q content ts is, d = .file q ∧ w.file q = some (some content) ∧ Reads content ts ∧ Items ts is ∧ Value is (str "list") p

/-- All of a configuration: `none` if a declaration is wrong. -/
inductive MeansAll (w : World) : List Decl → Option (List Group) → Prop
  | nil : MeansAll w [] (some [])
  | cons {d : Decl} {ds : List Decl} {gs hs : List Group} : Means w d (some gs) → MeansAll w ds (some hs) → MeansAll w (d :: ds) (some (gs ++ hs))
  | wrong {d : Decl} {ds : List Decl} : Means w d none → MeansAll w (d :: ds) none
  | later {d : Decl} {ds : List Decl} {gs : List Group} : Means w d (some gs) → MeansAll w ds none → MeansAll w (d :: ds) none

/-! ### Where queries go -/

/-- May a query that came this way go to a group of this kind? -/
def Fits (o : Opts) (tcp : Bool) (p : Proto) : Prop :=
  match tcp, p with
  | true, .tcp => True
  | true, .udp => o.tcpToUdp = true
  | false, .udp => True
  | false, .tcp => o.udpToTcp = true

/-- The domain texts in order of configuration, with the number of their group. -/
def rules (gs : List Group) : List (List Byte × Nat) :=
  (gs.zipIdx).flatMap (fun g => g.1.domains.map (fun d => (domainText d, g.2)))

/-- A rule that may be used: group `r.2` fits. -/
def Usable (o : Opts) (tcp : Bool) (gs : List Group) (r : List Byte × Nat) : Prop :=
  r ∈ rules gs ∧ ∃ g, gs[r.2]? = some g ∧ Fits o tcp g.proto

/-- Usable rules without and with wildcards for a name. -/
def PlainFor (o : Opts) (tcp : Bool) (gs : List Group) (name : List Byte) (r : List Byte × Nat) : Prop :=
  Usable o tcp gs r ∧ ¬ IsPattern r.1 ∧ Covers r.1 name

def PatternFor (o : Opts) (tcp : Bool) (gs : List Group) (fnm : List Byte → List Byte → Bool) (name : List Byte) (r : List Byte × Nat) : Prop :=
  Usable o tcp gs r ∧ IsPattern r.1 ∧ fnm r.1 name = true

/-- The documented choice (default.en.config, notes under "Server Groups"): the most specific rule without wildcards, of several the last;
else any rule with wildcards, `*` last; else any group. -/
def Documented (o : Opts) (tcp : Bool) (gs : List Group) (fnm : List Byte → List Byte → Bool) (name : List Byte) (i : Nat) : Prop :=
  (∃ t a b, rules gs = a ++ (t, i) :: b ∧ PlainFor o tcp gs name (t, i) ∧ (∀ r, PlainFor o tcp gs name r → r.1.length ≤ t.length) ∧
    (∀ j, (t, j) ∈ b → ¬ PlainFor o tcp gs name (t, j))) ∨
  ((∀ r, ¬ PlainFor o tcp gs name r) ∧ ∃ t, PatternFor o tcp gs fnm name (t, i) ∧
    (t = str "*" → ∀ r, PatternFor o tcp gs fnm name r → r.1 = str "*")) ∨
  ((∀ r, ¬ PlainFor o tcp gs name r) ∧ (∀ r, ¬ PatternFor o tcp gs fnm name r) ∧ i < gs.length)

end Verif.Groups
