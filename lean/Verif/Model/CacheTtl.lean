import Verif.Model.StringChunk
import Verif.Model.IpText
/-! Model of `cachettlcrtl.c` and of the lifetime decision in `dnscache.c` 215-264, 538-587. -/

namespace Verif.CacheTtl
open StringChunk

/-- cachettlcrtl.h 16-21 `CtrlContent`.  `state`: 0 `NO_CACHE`, -1 `ORIGINAL`, 1 `FIXED`, 2
`VARIABLE`; `infection`: 0 `AGGRESSIVLY`, 1 `PASSIVLY`, 2 `NONE`; the numbers are `uint32_t`. -/
structure Rule where
  state : Int
  coeff : Nat
  incr : Nat
  infection : Nat
deriving DecidableEq, Repr

/-- cachettlcrtl.c 16-26 `CacheTtlCrtl_Add`. -/
def add (c : Chunk Rule) (domain : List Byte) (state : Int) (coeff incr infection : Nat) : Chunk Rule :=
  c.addDomain domain (some ⟨state, if state = 1 then 0 else coeff, incr, infection⟩)

/-- One `%<n>s` conversion of `sscanf`: leading white space is skipped, at most `n` further
characters are taken; no character at all is an input failure. -/
def token (n : Nat) (s : List Byte) : Option (List Byte × List Byte) :=
  let s := s.dropWhile IpText.isSpace
  let t := (s.takeWhile (fun c => !IpText.isSpace c)).take n
  if t = [] then none else some (t, s.drop t.length)

/-- One `%u` conversion of `sscanf` on a 64-bit target: `strtoul`, which saturates at 2^64-1, reduced to
`unsigned int`. -/
def scanU (s : List Byte) : Option (Nat × List Byte) :=
  let (neg, s) := IpText.sign (IpText.skipSpace s)
  match IpText.spanDigits IpText.decVal s with
  | ([], _) => none
  | (ds, rest) =>
    let n := IpText.digitsVal 10 ds
    let v := if n ≥ 18446744073709551616 then 4294967295
      else if neg then (4294967296 - n % 4294967296) % 4294967296 else n % 4294967296
    some (v, rest)

/-- The outcome of reading a rule line: a variable is used without having been assigned; the line is
refused; a rule is added. -/
inductive Read where
  | undef
  | refused
  | rule (domain : List Byte) (r : Rule)
deriving DecidableEq, Repr

/-- cachettlcrtl.c 38-50: the contagion prefix and the rest of the command word. -/
def infectionOf : List Byte → Nat × List Byte
  | 36 :: 36 :: t => (2, t)
  | 36 :: t => (1, t)
  | t => (0, t)

/-- cachettlcrtl.c 63-66: `sscanf(Arg, "%ux+%u", ...)` into variables holding 0. -/
def scanVari (arg : List Byte) : Nat × Nat :=
  match scanU arg with
  | none => (0, 0)
  | some (a, 120 :: 43 :: t) => (a, ((scanU t).map Prod.fst).getD 0)
  | some (a, _) => (a, 0)

/-- cachettlcrtl.c 28-74 `CacheTtlCrtl_Add_From_String` up to the call of `CacheTtlCrtl_Add`, whose
normalisation of `FIXED` is applied here as well. -/
def readRule (s : List Byte) : Read :=
  match token 127 s with
  | none => .undef
  | some (domain, s) =>
    match token 15 s with
    | none => .undef
    | some (cmd, s) =>
      let arg := (token 63 s).map Prod.fst
      let (infection, cmd) := infectionOf cmd
      if (str "orig").isPrefixOf cmd then .rule domain ⟨-1, 0, 0, infection⟩
      else if (str "nocache").isPrefixOf cmd then .rule domain ⟨0, 0, 0, infection⟩
      else if (str "fixed").isPrefixOf cmd then
        match arg with
        | none => .undef
        | some arg => .rule domain ⟨1, 0, ((scanU arg).map Prod.fst).getD 0, infection⟩
      else if (str "vari").isPrefixOf cmd then
        match arg with
        | none => .undef
        | some arg => .rule domain ⟨2, (scanVari arg).1, (scanVari arg).2, infection⟩
      else .refused

/-- cachettlcrtl.c 76-100 `CacheTtlCrtl_Add_From_StringList`; `none`: a line used unassigned
variables. -/
def addLines : Chunk Rule → List (List Byte) → Option (Chunk Rule)
  | c, [] => some c
  | c, l :: ls =>
    match readRule l with
    | .undef => none
    | .refused => addLines c ls
    | .rule d r => addLines (add c d r.state r.coeff r.incr r.infection) ls

/-- dnscache.c 235-264, part of `DNSCache_Init`: the rule table (`none` inside: no table).  `lines` are
the values of `CacheControl` (`none`: the option is absent), `override` and `multiple` those of
`OverrideTTL` and `MultipleTTL`.  The infection of the general rules is `TRUE`, which is 1. -/
def initRules (lines : Option (List (List Byte))) (override multiple : Int) : Option (Option (Chunk Rule)) :=
  if lines ≠ none ∨ override > -1 ∨ multiple > 1 then
    match addLines (StringChunk.init bkdrHash) (lines.getD []) with
    | none => none
    | some c =>
      some (some (if override > -1 then add c [42] 1 1 override.toNat 1
        else if multiple > 1 then add c [42] 2 multiple.toNat 0 1
        else c))
  else some none

/-- cachettlcrtl.c 102-111 `CacheTtlCrtl_Get`; `behind` is the memory behind an empty text. -/
def get (c : Option (Chunk Rule)) (fnm : List Byte → List Byte → Bool) (s behind : List Byte) : Option Rule :=
  match c with
  | none => none
  | some c => (c.domainMatch fnm s (c.hash s) (fun _ => true) behind).bind id

/-- dnscache.c 538-567: which rule decides.  `parent` is the rule of the question's name
(`InfectedTtlContent`), `own` the result of the lookup with the item's text. -/
def choose (parent own : Option Rule) : Option Rule :=
  match parent with
  | none => own
  | some p =>
    if p.infection = 1 then
      match own with
      | none => some p
      | some o => some o
    else if p.infection = 2 then own
    else some p

/-- dnscache.c 569-587: the lifetime, in `uint32_t`.  (Zero is not stored, 589-592.) -/
def lifetime (r : Option Rule) (ttl : Nat) : Nat :=
  match r with
  | none => ttl
  | some r =>
    if r.state = 0 then 0
    else if r.state = -1 then ttl
    else (r.coeff * ttl + r.incr) % 4294967296

/-- dnscache.c 538-587 together with 655: the lifetime given to a record stored under the text `item`
(`name type class`) from a response to a question for `question`. -/
def effective (c : Option (Chunk Rule)) (fnm : List Byte → List Byte → Bool) (question behind item : List Byte)
    (ttl : Nat) : Nat :=
  lifetime (choose (get c fnm question behind) (get c fnm item [])) ttl

end Verif.CacheTtl
