import Verif.Model.StringChunk
import Verif.Model.StringList
import Verif.Model.ReadLine
import Verif.Model.IpText
/-! Model of `readconfig.c`.  The options are kept by the string table as copies that do not move; here the
table holds their numbers.  The path expansion of the system (`ExpandPath`, utils.c 917-961) is a
parameter. -/

namespace Verif.Config
open StringChunk (Chunk)
open StableBuffer (Buf)
open ReadLine (File call)

/-- readconfig.h 34-39 `MultilineStrategy`. -/
inductive Strategy where
  | default
  | replace
  | append
  | discard
deriving DecidableEq, Repr

/-- readconfig.h 23-32 `OptionType` with the matching member of `Holder`, 62-72. -/
inductive Holder where
  | int (v : Int)
  | bool (v : Bool)
  | path (s : Buf)
  | str (s : Buf)
  | alias (target : List Byte) (pre : Option (List Byte))
deriving DecidableEq, Repr

/-- readconfig.h 53-76 `ConfigOption`; `special` is `Status == STATUS_SPECIAL_VALUE`. -/
structure Item where
  special : Bool
  strategy : Strategy
  delims : Option (List Byte)
  holder : Holder
deriving DecidableEq, Repr

/-- readconfig.h 79-88 `ConfigFileInfo`, without the file. -/
structure Cfg where
  chunk : Chunk Nat
  items : List Item

/-- readconfig.c 10-25 `ConfigInitInfo`. -/
def init (hash : List Byte → UInt32) : Cfg := ⟨StringChunk.init hash, []⟩

/-- The `VType` given to the functions below, with the type of the option. -/
inductive Init where
  | int (v : Int)
  | bool (v : Bool)
  | path (s : Option (List Byte))
  | str (s : Option (List Byte))
deriving DecidableEq, Repr

/-- stringlist.c 271-312 `StringList_Init`. -/
def newList (s : Option (List Byte)) : Option Buf :=
  match s with
  | none => some []
  | some s => StringList.add [] s (some [44])

/-- `StringChunk_Add` of a new item. -/
def Cfg.put (c : Cfg) (key : List Byte) (it : Item) : Cfg :=
  ⟨c.chunk.add key (some c.items.length), c.items ++ [it]⟩

/-- readconfig.c 41-81 `ConfigAddOption`. -/
def addOption (c : Cfg) (key : List Byte) (st : Strategy) (i : Init) : Option Cfg :=
  match i with
  | .int v => some (c.put key ⟨false, st, none, .int v⟩)
  | .bool v => some (c.put key ⟨false, st, none, .bool v⟩)
  | .path s => (newList s).map fun b => c.put key ⟨false, st, some [44], .path b⟩
  | .str s => (newList s).map fun b => c.put key ⟨false, st, some [44], .str b⟩

/-- readconfig.c 83-118 `ConfigAddAlias`. -/
def addAlias (c : Cfg) (target key : List Byte) (pre delims : Option (List Byte)) : Cfg :=
  c.put key ⟨false, .default, delims, .alias target pre⟩

/-- What the table gives for a key: the number and the item. -/
def Cfg.find (c : Cfg) (key : List Byte) : Option (Nat × Item) :=
  match c.chunk.matchNoWild key (c.chunk.hash key) (fun _ => true) with
  | some (some i) => (c.items[i]?).map (i, ·)
  | _ => none

/-- readconfig.c 120-154 `GetOptionOfAInfo`.  The outer `none`: the recursion is deeper than `depth`. -/
def getOption (c : Cfg) : Nat → List Byte → Option (List Byte) → Option (List Byte) →
    Option (Option (Nat × Item × Option (List Byte) × Option (List Byte)))
  | 0, _, _, _ => none
  | depth + 1, key, pre, del =>
    match c.find key with
    | none => some none
    | some (i, it) =>
      match it.holder with
      | .alias t p => getOption c depth t p it.delims
      | _ => some (some (i, it, pre, del))

def Cfg.set (c : Cfg) (i : Nat) (it : Item) : Cfg := { c with items := c.items.set i it }

/-- readconfig.c 156-181 `ConfigSetStringDelimiters`. -/
def setDelims (c : Cfg) (depth : Nat) (key d : List Byte) : Option Cfg :=
  match getOption c depth key none none with
  | none => none
  | some none => some c
  | some (some (i, it, _, _)) =>
    match it.holder with
    | .str _ => some (c.set i { it with delims := some d })
    | _ => some c

/-- readconfig.c 555-587 `ConfigSetDefaultValue`, with a value of the option's type; nothing for paths. -/
def setDefault (c : Cfg) (depth : Nat) (key : List Byte) (v : Init) : Option Cfg :=
  match getOption c depth key none none with
  | none => none
  | some none => some c
  | some (some (i, it, _, _)) =>
    match it.holder, v with
    | .int _, .int v => some (c.set i { it with holder := .int v })
    | .bool _, .bool v => some (c.set i { it with holder := .bool v })
    | .str b, .str (some s) =>
      (StringList.add (StringList.clear b) s it.delims).map fun b => c.set i { it with holder := .str b }
    | .path _, _ => some c
    | _, _ => none

/-! ### Values -/

/-- C library `strstr` against NULL. -/
def hasSub (sub : List Byte) : List Byte → Bool
  | [] => sub == []
  | c :: t => sub.isPrefixOf (c :: t) || hasSub sub t

/-- readconfig.c 183-211 `GetBooleanValueFromString`. -/
def getBool (s : List Byte) : Bool :=
  let dump := strToLower (s.take 7)
  match s with
  | [] => false
  | c :: _ =>
    if 48 ≤ c ∧ c ≤ 57 then c != 48
    else if hasSub (str "false") dump then false
    else if hasSub (str "true") dump then true
    else if hasSub (str "no") dump then false
    else hasSub (str "yes") dump

/-- The strategy after a value was given. -/
def nextStrategy (it : Item) : Strategy :=
  if it.strategy = .discard ∧ it.special = false then .append else it.strategy

/-- readconfig.c 213-245 `ParseBoolean`; `old` is what the option holds. -/
def parseBool (it : Item) (old : Bool) (v : List Byte) : Item :=
  { it with special := true, strategy := nextStrategy it
            holder := .bool (if it.strategy = .append then old || getBool v else getBool v) }

/-- readconfig.c 247-279 `ParseInt32`; `none` for values that are out of range, and for an uninitialised
one. -/
def parseInt (it : Item) (old : Int) (v : List Byte) : Option Item :=
  match IpText.scanDec v with
  | .undef => none
  | .fail =>
    if it.strategy = .append then none
    else some { it with special := true, strategy := nextStrategy it }
  | .ok n _ =>
    if it.strategy = .append then
      if -2147483648 ≤ old + n ∧ old + n ≤ 2147483647 then some { it with special := true, holder := .int (old + n) } else none
    else some { it with special := true, strategy := nextStrategy it, holder := .int n }

/-- readconfig.c 281-317, the first half of `ParseString`: the list afterwards. -/
def parseStringAdd (it : Item) (b : Buf) (d : Option (List Byte)) (v : List Byte) : Option Buf :=
  StringList.add (if it.strategy = .append then b else StringList.clear b) v d

/-- readconfig.c 319-326: the rest of a value that did not fit the buffer. -/
def appendRest (n : Nat) (d : Option (List Byte)) : Nat → Buf → File → Option (Buf × File)
  | 0, _, _ => none
  | fuel + 1, b, f =>
    match call n f with
    | .undef => none
    | .stuck => none
    | .fin f' => some (b, f')
    | .done s f' => (StringList.appendLast b s d).map fun r => (r.getD b, f')
    | .truncated s f' =>
      match StringList.appendLast b s d with
      | none => none
      | some r => appendRest n d fuel (r.getD b) f'

/-- readconfig.c 338-359 `TrimPath`. -/
def trimPath (p : List Byte) : Option (List Byte) :=
  match StringList.strRNpbrk p (str "\"") with
  | none => none
  | some k =>
    match StringList.strNpbrk (p.take (k + 1)) (str "\"\t ") with
    | none => none
    | some j => some ((p.take (k + 1)).drop j)

/-- utils.c 1305-1317 `SplitNameAndValue` with `" \t="`, 874-877 `GoToNextNonSpace`. -/
def splitLine (s : List Byte) : Option (List Byte × List Byte) :=
  let k := s.takeWhile (fun c => c != 32 && c != 9 && c != 61)
  match s.drop k.length with
  | [] => none
  | _ :: r =>
    match StringList.strNpbrk r (str "\t ") with
    | none => none
    | some j => some (k, r.drop j)

/-- readconfig.c 402-434: a prefix is taken as a value before the value. -/
def prepend (it : Item) (d : Option (List Byte)) (p : List Byte) : Option Item :=
  match it.holder with
  | .int old => parseInt it old p
  | .bool old => some (parseBool it old p)
  | .path b => (parseStringAdd it b (some []) p).map fun b => { it with special := true, strategy := nextStrategy it, holder := .path b }
  | .str b => (parseStringAdd it b d p).map fun b => { it with special := true, strategy := nextStrategy it, holder := .str b }
  | .alias _ _ => some it

/-- readconfig.c 319-332: the second half of `ParseString`. -/
def finishString (n : Nat) (d : Option (List Byte)) (complete : Bool) (b : Buf) (f : File) : Option (Buf × File) :=
  match (if complete then some (b, f) else appendRest n d (f.rest.length + 2) b f) with
  | none => none
  | some (b, f) => (StringList.trimAll b none).map (·, f)

/-- readconfig.c 436-474: the value. -/
def setValue (n : Nat) (expand : List Byte → List Byte) (it : Item) (d : Option (List Byte)) (v : List Byte) (complete : Bool) (f : File) :
    Option (Item × File) :=
  match it.holder with
  | .int old => (parseInt it old v).map (·, f)
  | .bool old => some (parseBool it old v, f)
  | .path b =>
    if complete then
      match trimPath v with
      | none => some (it, f)
      | some p =>
        match parseStringAdd it b (some []) (expand p) with
        | none => none
        | some b =>
          (finishString n (some []) complete b f).map fun r =>
            ({ it with special := true, strategy := nextStrategy it, holder := .path r.1 }, r.2)
    else some (it, f)
  | .str b =>
    match parseStringAdd it b d v with
    | none => none
    | some b =>
      (finishString n d complete b f).map fun r =>
        ({ it with special := true, strategy := nextStrategy it, holder := .str r.1 }, r.2)
  | .alias _ _ => some (it, f)

/-- readconfig.c 382-475: what is done with a line; the file is read on if it was not complete. -/
def useLine (n : Nat) (expand : List Byte → List Byte) (depth : Nat) (c : Cfg) (s : List Byte) (complete : Bool) (f : File) :
    Option (Cfg × File) :=
  match splitLine s with
  | none => some (c, f)
  | some (key, v) =>
    match getOption c depth key none none with
    | none => none
    | some none => some (c, f)
    | some (some (i, it, pre, del)) =>
      let d := match del with | none => it.delims | some d => some d
      match (match pre with | none => some it | some p => prepend it d p) with
      | none => none
      | some it => (setValue n expand it d v complete f).map fun r => (c.set i r.1, r.2)

/-- readconfig.c 361-479 `ConfigRead`; the buffer has 2048 bytes. -/
def readLoop (n : Nat) (expand : List Byte → List Byte) (depth : Nat) : Nat → Cfg → File → Option Cfg
  | 0, _, _ => none
  | fuel + 1, c, f =>
    match call n f with
    | .undef => none
    | .stuck => none
    | .fin _ => some c
    | .done s f' =>
      match useLine n expand depth c s true f' with
      | none => none
      | some (c', f'') => readLoop n expand depth fuel c' f''
    | .truncated s f' =>
      match useLine n expand depth c s false f' with
      | none => none
      | some (c', f'') => readLoop n expand depth fuel c' f''

def read (expand : List Byte → List Byte) (depth : Nat) (c : Cfg) (content : List Byte) : Option Cfg :=
  readLoop 2048 expand depth (content.length + 1) c ⟨content, false⟩

/-! ### Asking -/

/-- readconfig.c 530-540 `ConfigGetInt32`, for an option of that type; `none` otherwise. -/
def getInt (c : Cfg) (depth : Nat) (key : List Byte) : Option Int :=
  match getOption c depth key none none with
  | some none => some 0
  | some (some (_, it, _, _)) => match it.holder with | .int v => some v | _ => none
  | none => none

/-- readconfig.c 542-552 `ConfigGetBoolean`. -/
def getBoolean (c : Cfg) (depth : Nat) (key : List Byte) : Option Bool :=
  match getOption c depth key none none with
  | some none => some false
  | some (some (_, it, _, _)) => match it.holder with | .bool v => some v | _ => none
  | none => none

/-- readconfig.c 500-515 `ConfigGetStringList` and the strings in it; an empty list counts as NULL. -/
def getStrings (c : Cfg) (depth : Nat) (key : List Byte) : Option (List (List Byte)) :=
  match getOption c depth key none none with
  | some none => some []
  | some (some (_, it, _, _)) =>
    match it.holder with
    | .str b => StringList.items b
    | .path b => StringList.items b
    | _ => none
  | none => none

/-! ### Declaring options -/

inductive Decl where
  | option (key : List Byte) (st : Strategy) (i : Init)
  | alias (target key : List Byte) (pre delims : Option (List Byte))
  | delims (key d : List Byte)
  | default (key : List Byte) (v : Init)
deriving DecidableEq, Repr

def declare (depth : Nat) (c : Cfg) : Decl → Option Cfg
  | .option key st i => addOption c key st i
  | .alias t key p d => some (addAlias c t key p d)
  | .delims key d => setDelims c depth key d
  | .default key v => setDefault c depth key v

def declareAll (depth : Nat) : Cfg → List Decl → Option Cfg
  | c, [] => some c
  | c, d :: ds =>
    match declare depth c d with
    | none => none
    | some c' => declareAll depth c' ds

end Verif.Config
