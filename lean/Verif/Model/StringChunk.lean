import Verif.Model.SimpleHT
/-! Model of `stringchunk.c`: string table with exact keys (hashed) and wildcard keys (a list). -/

namespace Verif.StringChunk
open SimpleHT

/-- stringchunk.c `EntryForString`: the stored copy of the key and the additional data
(`none` = NULL).  The bytes are those copied to the stable buffers by lines 94-113. -/
structure Entry (δ : Type) where
  str : List Byte
  data : Option δ
deriving DecidableEq, Repr

/-- stringchunk.h `StringChunk`: `List_Pos` (hash table) and `List_W_Pos` (wildcard entries in order
of addition).  `hash` is the hash function given to the table (`HASH` = BKDR in the code). -/
structure Chunk (δ : Type) where
  hash : List Byte → UInt32
  ht : HT (Entry δ)
  wild : List (Entry δ)

variable {δ : Type}

/-- stringchunk.c 11-68 `StringChunk_Init`: load factor 5. -/
def init (hash : List Byte → UInt32) : Chunk δ := { hash := hash, ht := SimpleHT.init 5, wild := [] }

/-- common.h 253 `HAS_WILDCARD`: contains `*`, `?` or `[` (non-Windows build). -/
def hasWildcard (s : List Byte) : Bool := s.any (fun c => c == 42 || c == 63 || c == 91)

/-- stringchunk.c 70-129 `StringChunk_Add`. -/
def Chunk.add (c : Chunk δ) (s : List Byte) (d : Option δ) : Chunk δ :=
  if hasWildcard s then { c with wild := c.wild ++ [⟨s, d⟩] }
  else { c with ht := c.ht.add (c.hash s) ⟨s, d⟩ }

/-- stringchunk.c 131-143 `StringChunk_Add_Domain`: one leading dot is dropped. -/
def stripDot : List Byte → List Byte
  | 46 :: t => t
  | s => s

def Chunk.addDomain (c : Chunk δ) (s : List Byte) (d : Option δ) : Chunk δ := c.add (stripDot s) d

/-- stringchunk.c 145-186 `StringChunk_Match_NoWildCard`.  `hv` is `*HashValue`, or `HASH(Str)` when
the argument is NULL.  `ok` is the effect of `cb` (constantly true when `Data` or `cb` is NULL).
Result: `none` = FALSE, `some d` = TRUE with `*Data = d`.  The chain has at most as many nodes as the
table, which bounds the loop (proved: the fuel never runs out in a reachable table; an unreachable
cyclic table would give `none`). -/
def Chunk.matchNoWild (c : Chunk δ) (s : List Byte) (hv : UInt32) (ok : Option δ → Bool) :
    Option (Option δ) :=
  match c.ht.scan (fun e => e.str == s && ok e.data) c.ht.nodes.length (c.ht.findFirst hv) with
  | some (some e) => some e.data
  | _ => none

/-- stringchunk.c 188-233 `StringChunk_Match_OnlyWildCard`: the first added pattern that matches.
`fnm pattern string` is `fnmatch(pattern, string, FNM_NOESCAPE) == 0`. -/
def Chunk.matchWild (c : Chunk δ) (fnm : List Byte → List Byte → Bool) (s : List Byte)
    (ok : Option δ → Bool) : Option (Option δ) :=
  (c.wild.find? (fun e => fnm e.str s && ok e.data)).map (·.data)

/-- stringchunk.c 235-302 `StringChunk_Match_OnlyWildCard_GetOne`: a random one of the matching
patterns, those other than `*` preferred.  `rnd` is `rand()`.  A chosen NULL datum counts as FALSE. -/
def Chunk.matchWildGetOne (c : Chunk δ) (fnm : List Byte → List Byte → Bool) (s : List Byte)
    (ok : Option δ → Bool) (rnd : Nat) : Option δ :=
  let hits := c.wild.filter (fun e => fnm e.str s && ok e.data)
  let matchesL := hits.filter (fun e => e.str != [42])
  let anys := hits.filter (fun e => e.str == [42])
  let pm := if matchesL.length > 0 then matchesL else anys
  match pm[rnd % pm.length]? with
  | some e => e.data
  | none => none

/-- stringchunk.c 304-314 `StringChunk_Match`. -/
def Chunk.match_ (c : Chunk δ) (fnm : List Byte → List Byte → Bool) (s : List Byte) (hv : UInt32)
    (ok : Option δ → Bool) : Option (Option δ) :=
  match c.matchNoWild s hv ok with
  | some r => some r
  | none => c.matchWild fnm s ok

/-- stringchunk.c 316-373 `StringChunk_Match_Exactly`: patterns are compared literally. -/
def Chunk.matchExactly (c : Chunk δ) (s : List Byte) (hv : UInt32) (ok : Option δ → Bool) :
    Option (Option δ) :=
  match c.matchNoWild s hv ok with
  | some r => some r
  | none => (c.wild.find? (fun e => e.str == s && ok e.data)).map (·.data)

/-- stringchunk.c 393-403: the `strchr(.., '.')` loop.  The argument is the string at `Domain + 1`;
every time a dot is passed the rest of the string is looked up. -/
def Chunk.domainLoop (c : Chunk δ) (ok : Option δ → Bool) : List Byte → Option (Option δ)
  | [] => none
  | ch :: t =>
    if ch = 46 then
      match c.matchNoWild t (c.hash t) ok with
      | some r => some r
      | none => c.domainLoop ok t
    else c.domainLoop ok t

/-- stringchunk.c 375-406 `StringChunk_Domain_Match_NoWildCard`.  `Domain + 1` of an empty string is
the memory behind its terminator: `behind` is the C string found there. -/
def Chunk.domainMatchNoWild (c : Chunk δ) (domain : List Byte) (hv : UInt32) (ok : Option δ → Bool)
    (behind : List Byte) : Option (Option δ) :=
  match c.matchNoWild domain hv ok with
  | some r => some r
  | none =>
    match domain with
    | [] => c.domainLoop ok behind
    | _ :: t => c.domainLoop ok t

/-- stringchunk.c 408-418 `StringChunk_Domain_Match`. -/
def Chunk.domainMatch (c : Chunk δ) (fnm : List Byte → List Byte → Bool) (domain : List Byte)
    (hv : UInt32) (ok : Option δ → Bool) (behind : List Byte) : Option (Option δ) :=
  match c.domainMatchNoWild domain hv ok behind with
  | some r => some r
  | none => c.matchWild fnm domain ok

/-- stringchunk.c 420-430 `StringChunk_Domain_Match_WildCardRandom`. -/
def Chunk.domainMatchWildRandom (c : Chunk δ) (fnm : List Byte → List Byte → Bool)
    (domain : List Byte) (hv : UInt32) (ok : Option δ → Bool) (behind : List Byte) (rnd : Nat) :
    Option (Option δ) :=
  match c.domainMatchNoWild domain hv ok behind with
  | some r => some r
  | none => (c.matchWildGetOne fnm domain ok rnd).map some

/-- A history of additions (raw or as domain). -/
inductive Op (δ : Type) where
  | add (s : List Byte) (d : Option δ)
  | addDomain (s : List Byte) (d : Option δ)

def Chunk.step (c : Chunk δ) : Op δ → Chunk δ
  | .add s d => c.add s d
  | .addDomain s d => c.addDomain s d

def Chunk.run (c : Chunk δ) (ops : List (Op δ)) : Chunk δ := ops.foldl Chunk.step c

end Verif.StringChunk
