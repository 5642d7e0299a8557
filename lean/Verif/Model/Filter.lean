import Verif.Model.Bst
import Verif.Model.StringChunk
import Verif.Model.MsgContext
/-! Model of `filter.c`: disabled types and disabled domains. -/

namespace Verif.Filter
open StringChunk Msg

/-- filter.c 12-15: the two tables (`none` = NULL). -/
structure State where
  types : Option (Bst.State Int)
  domains : Option (Chunk Unit)

/-- filter.c 19-22 `TypeCompare`.  Simplification: no `int` overflow (the types of received messages
are 0..65535; a configured value close to INT_MIN would overflow). -/
def typeCmp (a b : Int) : Int := a - b

/-- filter.c 193-200: every entry goes through `sscanf("%d")`.  `none` = no number: the variable keeps
its previous value (`cur`; at first its uninitialised content). -/
def loadTypes (cur : Int) : List (Option Int) → List Int
  | [] => []
  | some v :: t => v :: loadTypes v t
  | none :: t => cur :: loadTypes cur t

/-- filter.c 166-205 `FilterType_Init`. -/
def initTypes (junk : Int) (conf : Option (List (Option Int))) : Option (Bst.State Int) :=
  conf.map (fun l => (loadTypes junk l).foldl (fun s x => (s.add typeCmp x).2) Bst.State.init)

/-- filter.c 42-66 and 87-124: add every domain of the option or file to the table. -/
def loadDomains (c : Chunk Unit) (l : List (List Byte)) : Chunk Unit :=
  l.foldl (fun c s => c.addDomain s none) c

/-- filter.c 68-85, 126-153, 216-244 `DisabledDomain_Init`: the values of `DisabledDomain`, then the
lines of every file named by `DisabledList` (`none`: the option is absent).  A file that cannot be
opened counts as empty. -/
def initDomains (opt : Option (List (List Byte))) (files : Option (List (List (List Byte)))) :
    Option (Chunk Unit) :=
  let t1 := opt.map (loadDomains (StringChunk.init bkdrHash))
  match files with
  | none => t1
  | some fs => some (fs.foldl loadDomains (t1.getD (StringChunk.init bkdrHash)))

/-- filter.c 276-285 `IsDisabledType`. -/
def isDisabledType (s : State) (t : Nat) : Bool :=
  match s.types with
  | none => false
  | some b => (b.search typeCmp t).isSome

/-- filter.c 287-301 `IsDisabledDomain`; `behind` is the memory behind an empty domain text. -/
def isDisabledDomain (s : State) (fnm : List Byte → List Byte → Bool) (d : List Byte) (hv : UInt32)
    (behind : List Byte) : Bool :=
  match s.domains with
  | none => false
  | some c => (c.domainMatch fnm d hv (fun _ => true) behind).isSome

/-- filter.c 303-317 `Filter_Out`: the return value and what is sent. -/
def filterOut {Addr : Type} (s : State) (fnm : List Byte → List Byte → Bool) (behind : List Byte)
    (m : Ctx Addr) : Bool × List (Sent Addr) :=
  if isDisabledType s m.type || isDisabledDomain s fnm m.domain m.hash behind then
    (true, [sendBackRefused m])
  else (false, [])

end Verif.Filter
