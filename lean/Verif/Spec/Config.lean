import Verif.Model.Config
import Verif.Spec.StringList
import Verif.Spec.IpText
/-! What a configuration file means.  Of the model only the declarations are used. -/

namespace Verif.Config
open StringList (Split Trims white Lowered)

/-! ### The table of options, without any memory -/

inductive Val where
  | int (v : Int)
  | bool (v : Bool)
  | path (l : List (List Byte))
  | str (l : List (List Byte))

/-- An option; `given`: a line gave it a value. -/
structure Opt where
  given : Bool
  strategy : Strategy
  delims : List Byte
  val : Val

inductive Entry where
  | opt (o : Opt)
  | alias (target : List Byte) (pre delims : Option (List Byte))

abbrev Table := List (List Byte × Entry)

/-- A key without `*`, `?` and `[`. -/
def Plain (k : List Byte) : Prop := ∀ c ∈ k, c ≠ 42 ∧ c ≠ 63 ∧ c ≠ 91

/-- The entry for a key is the last one that was declared. -/
def Finds (tab : Table) (k : List Byte) (i : Nat) (e : Entry) : Prop :=
  Plain k ∧ tab[i]? = some (k, e) ∧ ∀ (j : Nat) (e' : Entry), i < j → tab[j]? ≠ some (k, e')

def Unknown (tab : Table) (k : List Byte) : Prop := ¬ Plain k ∨ ∀ (j : Nat) (e : Entry), tab[j]? ≠ some (k, e)

/-- The option a key names, the prefix and the delimiters to use. -/
inductive Names (tab : Table) (k : List Byte) : Nat → Opt → Option (List Byte) → List Byte → Prop
  | option {i : Nat} {o : Opt} : Finds tab k i (.opt o) → Names tab k i o none o.delims
  | alias {i j : Nat} {o : Opt} {t : List Byte} {p d : Option (List Byte)} : Finds tab k j (.alias t p d) →
      Finds tab t i (.opt o) → Names tab k i o p (d.getD o.delims)

/-- The value at a declaration: split at commas, if it is a text. -/
inductive Starts : Init → Val → Prop
  | int {v : Int} : Starts (.int v) (.int v)
  | bool {v : Bool} : Starts (.bool v) (.bool v)
  | path0 : Starts (.path none) (.path [])
  | str0 : Starts (.str none) (.str [])
  | path {s : List Byte} {ps : List (List Byte)} : Split [44] s ps → Starts (.path (some s)) (.path ps)
  | str {s : List Byte} {ps : List (List Byte)} : Split [44] s ps → Starts (.str (some s)) (.str ps)

/-- What a declaration does. -/
inductive Declares (tab : Table) : Decl → Table → Prop
  | option {k : List Byte} {st : Strategy} {i : Init} {v : Val} : Starts i v →
      Declares tab (.option k st i) (tab ++ [(k, .opt ⟨false, st, [44], v⟩)])
  | alias {t k : List Byte} {p d : Option (List Byte)} : Declares tab (.alias t k p d) (tab ++ [(k, .alias t p d)])
  | delims {k d : List Byte} {i : Nat} {o : Opt} {l : List (List Byte)} : Finds tab k i (.opt o) → o.val = .str l →
      Declares tab (.delims k d) (tab.set i (k, .opt { o with delims := d }))
  | default {k s : List Byte} {i : Nat} {o : Opt} {l ps : List (List Byte)} : Finds tab k i (.opt o) → o.val = .str l →
      Split o.delims s ps → Declares tab (.default k (.str (some s))) (tab.set i (k, .opt { o with val := .str ps }))

inductive Declared : List Decl → Table → Prop
  | nil : Declared [] []
  | snoc {ds : List Decl} {d : Decl} {tab tab' : Table} : Declared ds tab → Declares tab d tab' → Declared (ds ++ [d]) tab'

/-- Tables as they are used: an alias stands for an option, with a prefix only for a text; numbers and
truth values have one value only. -/
def Entry.Sane (tab : Table) : Entry → Prop
  | .alias t p _ => ∃ i o, Finds tab t i (.opt o) ∧ (p ≠ none → ∃ l, o.val = .str l)
  | .opt o => (o.strategy = .discard → o.given = false) ∧
    match o.val with
    | .int _ => o.strategy = .default ∨ o.strategy = .replace
    | .bool _ => o.strategy = .default ∨ o.strategy = .replace
    | _ => True

def Sane (tab : Table) : Prop := ∀ e ∈ tab, e.2.Sane tab

/-! ### Lines -/

/-- A line gives a value to a key: between them a space, a tab or a `=`, then any number of spaces and
tabs. -/
def Pair (s k v : List Byte) : Prop :=
  ∃ x w, s = k ++ x :: (w ++ v) ∧ (∀ c ∈ k, c ≠ 32 ∧ c ≠ 9 ∧ c ≠ 61) ∧ (x = 32 ∨ x = 9 ∨ x = 61) ∧
    (∀ c ∈ w, c = 32 ∨ c = 9) ∧ ∃ c r, v = c :: r ∧ c ≠ 32 ∧ c ≠ 9

/-- A text that starts with a number. -/
def Number (v : List Byte) (n : Int) : Prop :=
  ∃ t rest, v = t ++ rest ∧ IpText.SignedNum t n ∧ ∀ c, rest.head? = some c → ¬ (48 ≤ c ∧ c ≤ 57)

/-- A text that does not: no digit behind white space and a sign. -/
def NoNumber (v : List Byte) : Prop :=
  ∃ sp sg r, v = sp ++ sg ++ r ∧ (∀ c ∈ sp, c = 32 ∨ (9 ≤ c ∧ c ≤ 13)) ∧ (sg = [] ∨ sg = [43] ∨ sg = [45]) ∧
    ∀ c, r.head? = some c → ¬ (48 ≤ c ∧ c ≤ 57) ∧ (sg = [] → c ≠ 43 ∧ c ≠ 45 ∧ ¬ (c = 32 ∨ (9 ≤ c ∧ c ≤ 13)))

/-- Truth values: a digit, or words within the first seven bytes. -/
inductive Truth (v : List Byte) : Bool → Prop
  | digit {c : Byte} {r : List Byte} : v = c :: r → 48 ≤ c → c ≤ 57 → Truth v (decide (c ≠ 48))
  | word {w : List Byte} {b : Bool} : (∀ c r, v = c :: r → ¬ (48 ≤ c ∧ c ≤ 57)) → Lowered (v.take 7) w →
      (str "false" <:+: w ∧ b = false ∨ ¬ str "false" <:+: w ∧ (str "true" <:+: w ∧ b = true ∨ ¬ str "true" <:+: w ∧
        (str "no" <:+: w ∧ b = false ∨ ¬ str "no" <:+: w ∧ (str "yes" <:+: w ∧ b = true ∨ ¬ str "yes" <:+: w ∧ b = false)))) →
      Truth v b

/-- The text of a path: without quotes at the end, and without quotes, spaces and tabs at the start. -/
def PathText (v p : List Byte) : Prop :=
  ∃ a b, v = a ++ p ++ b ∧ (∀ c ∈ b, c = 34) ∧ (∀ c ∈ a, c = 34 ∨ c = 9 ∨ c = 32) ∧
    (∀ c, p.head? = some c → c ≠ 34 ∧ c ≠ 9 ∧ c ≠ 32) ∧ (∀ c, p.getLast? = some c → c ≠ 34) ∧ p ≠ []

/-- No text is left of it. -/
def NoPath (v : List Byte) : Prop := ∃ a b, v = a ++ b ∧ (∀ c ∈ b, c = 34) ∧ (∀ c ∈ a, c = 34 ∨ c = 9 ∨ c = 32)

/-- The strings a text option holds before the pieces of a line are added, and its strategy afterwards. -/
inductive Base (o : Opt) (l : List (List Byte)) : List (List Byte) → Strategy → Prop
  | append : o.strategy = .append → Base o l l .append
  | discard : o.strategy = .discard → o.given = false → Base o l [] .append
  | default : o.strategy = .default → Base o l [] .default
  | replace : o.strategy = .replace → Base o l [] .replace

/-- The pieces of a prefix; for an option with one value only the value counts. -/
inductive PrePieces (o : Opt) (d : List Byte) : Option (List Byte) → List (List Byte) → Prop
  | none : PrePieces o d none []
  | some {p : List Byte} {ps : List (List Byte)} : o.strategy = .append ∨ o.strategy = .discard → Split d p ps → PrePieces o d (some p) ps
  | replaced {p : List Byte} : o.strategy = .default ∨ o.strategy = .replace → PrePieces o d (some p) []

/-- The value `v`, with a prefix, makes the option `o` into `o'`.  `expand` is the expansion of paths by
the system. -/
inductive Takes (expand : List Byte → List Byte) (o : Opt) (pre : Option (List Byte)) (d v : List Byte) : Opt → Prop
  | int {old n : Int} : pre = none → o.val = .int old → Number v n → Takes expand o pre d v { o with given := true, val := .int n }
  | noInt {old : Int} : pre = none → o.val = .int old → NoNumber v → Takes expand o pre d v { o with given := true }
  | bool {old b : Bool} : pre = none → o.val = .bool old → Truth v b → Takes expand o pre d v { o with given := true, val := .bool b }
  | str {l base ps qs l' : List (List Byte)} {st : Strategy} : o.val = .str l → Base o l base st → PrePieces o d pre ps → Split d v qs →
      Trims white (base ++ ps ++ qs) l' → Takes expand o pre d v { o with given := true, strategy := st, val := .str l' }
  | path {l base l' : List (List Byte)} {p : List Byte} {st : Strategy} : pre = none → o.val = .path l → Base o l base st → PathText v p →
      Trims white (base ++ [expand p]) l' → Takes expand o pre d v { o with given := true, strategy := st, val := .path l' }
  | noPath {l : List (List Byte)} : pre = none → o.val = .path l → NoPath v → Takes expand o pre d v o

/-- What a line does to the table. -/
inductive LineMeans (expand : List Byte → List Byte) (tab : Table) (s : List Byte) : Table → Prop
  | noPair : (¬ ∃ k v, Pair s k v) → LineMeans expand tab s tab
  | unknown {k v : List Byte} : Pair s k v → Unknown tab k → LineMeans expand tab s tab
  | value {k v d x : List Byte} {i : Nat} {o o' : Opt} {pre : Option (List Byte)} : Pair s k v → Names tab k i o pre d →
      tab[i]? = some (x, .opt o) → Takes expand o pre d v o' → LineMeans expand tab s (tab.set i (x, .opt o'))

/-- What the lines do, one after the other. -/
inductive Reads (expand : List Byte → List Byte) : Table → List (List Byte) → Table → Prop
  | nil {tab : Table} : Reads expand tab [] tab
  | cons {tab tab1 tab2 : Table} {s : List Byte} {ss : List (List Byte)} : LineMeans expand tab s tab1 → Reads expand tab1 ss tab2 →
      Reads expand tab (s :: ss) tab2

/-! ### The history of one option -/

/-- A value that was given to an option: the prefix, the delimiters and the text. -/
abbrev GivenVal := Option (List Byte) × List Byte × List Byte

/-- The values which lines give to option `i`, in order: of every line that names it, directly or by an
alias. -/
inductive Gives (tab : Table) (i : Nat) : List (List Byte) → List GivenVal → Prop
  | nil : Gives tab i [] []
  | skip {s : List Byte} {ss : List (List Byte)} {vs : List GivenVal} : (∀ k v o p d, Pair s k v → ¬ Names tab k i o p d) →
      Gives tab i ss vs → Gives tab i (s :: ss) vs
  | take {s k v d : List Byte} {p : Option (List Byte)} {o : Opt} {ss : List (List Byte)} {vs : List GivenVal} : Pair s k v →
      Names tab k i o p d → Gives tab i ss vs → Gives tab i (s :: ss) ((p, d, v) :: vs)

/-- The strings in these values: of each one those of its prefix and then those of its text. -/
inductive AllPieces : List GivenVal → List (List Byte) → Prop
  | nil : AllPieces [] []
  | cons {d v : List Byte} {qs rs : List (List Byte)} {vs : List GivenVal} : Split d v qs → AllPieces vs rs → AllPieces ((none, d, v) :: vs) (qs ++ rs)
  | pre {p d v : List Byte} {ps qs rs : List (List Byte)} {vs : List GivenVal} : Split d p ps → Split d v qs → AllPieces vs rs →
      AllPieces ((some p, d, v) :: vs) (ps ++ qs ++ rs)

/-! ### Asking -/

/-- A configuration, as seen by `int`, `bool` and `strings`, shows a table: unknown keys give defaults. -/
def Shows (int : List Byte → Option Int) (bool : List Byte → Option Bool) (strings : List Byte → Option (List (List Byte))) (tab : Table) : Prop :=
  ∀ k, (Unknown tab k → int k = some 0 ∧ bool k = some false ∧ strings k = some []) ∧
    ∀ i o p d, Names tab k i o p d →
      match o.val with
      | .int v => int k = some v
      | .bool v => bool k = some v
      | .path l => strings k = some l
      | .str l => strings k = some l

/-! ### Sizes -/

/-- Prefixes are C strings of at most `P` bytes. -/
def PreOk (P : Nat) (tab : Table) : Prop := ∀ k t p d, (k, Entry.alias t (some p) d) ∈ tab → p.length ≤ P ∧ (0 : Byte) ∉ p

/-- Texts are C strings. -/
def CleanDecl : Decl → Prop
  | .option _ _ (.str (some s)) => (0 : Byte) ∉ s
  | .option _ _ (.path (some s)) => (0 : Byte) ∉ s
  | .default _ (.str (some s)) => (0 : Byte) ∉ s
  | _ => True

/-- Numbers given to options that hold one fit an `int`. -/
def NumbersFit (tab : Table) (s : List Byte) : Prop := ∀ k v i o pre d old n, Pair s k v → Names tab k i o pre d → o.val = .int old →
  Number v n → -2147483648 ≤ n ∧ n ≤ 2147483647

def textSize : Decl → Nat
  | .option _ _ (.str (some s)) => s.length + 1
  | .option _ _ (.path (some s)) => s.length + 1
  | .default _ (.str (some s)) => s.length + 1
  | _ => 0

/-- So little text that no `int` overflows; `P` is the size of the longest prefix, `E` what the
expansion of a path may add. -/
def Fits (ds : List Decl) (ss : List (List Byte)) (last : List Byte) (P E : Nat) : Prop :=
  ((ds.map textSize).sum + ((ss ++ [last]).map fun s => s.length + P + E + 2).sum + 1) * (ds.length + 3 * (ss.length + 1) + 1) ≤ 2147483647

end Verif.Config
