import Verif.Model.IpChunk
import Verif.Model.Parser
/-! Model of `ipmisc.c`: blocking and substituting addresses in responses from upstream. -/

namespace Verif.IpMisc
open Parser IpText

/-- ipmisc.h 14-16: the return values of `IPMisc_Process`. -/
inductive Verdict where
  | nothing | filtered | negative
deriving DecidableEq, Repr

/-- ipmisc.h 8-12 `MiscType`. -/
def typeBlock : Nat := 1
def typeSubstitute : Nat := 2

/-- ipmisc.c 10-18 `IPMisc_AddBlockFromString` (`none`: undefined). -/
def addBlock (c : IpChunk.Chunk) (ip : List Byte) : Option IpChunk.Chunk :=
  (IpChunk.add c ip typeBlock none).map (·.2)

/-- ipmisc.c 20-50 `IPMisc_AddSubstituteFromString`.  The result of converting the replacement is not
checked; if it leaves bytes of the local array undetermined, the entry holds undetermined bytes, which
is the outcome `none` here. -/
def addSubstitute (c : IpChunk.Chunk) (ip sub : List Byte) : Option IpChunk.Chunk :=
  match (if (58 : Byte) ∈ ip then v6ToNum sub else v4ToNum sub) with
  | .undef => none
  | .ret _ none => none
  | .ret _ (some d) => (IpChunk.add c ip typeSubstitute (some d)).map (·.2)

/-- `memcpy(b + i, bs, |bs|)`; the target is inside `b`. -/
def put (b : List Byte) (i : Nat) (bs : List Byte) : List Byte := b.take i ++ bs ++ b.drop (i + bs.length)

/-- ipmisc.c 77-127: the loop over the answers, at most `n` times.  `none`: memory outside the buffer
is accessed, or `n` was too small. -/
def loop (lists : IpChunk.Chunk) (len : Nat) (c : Counts) : Nat → List Byte → Itr → Option (Verdict × List Byte)
  | 0, _, _ => none
  | n + 1, b, it =>
    match next b len c it with
    | none => none
    | some (_, none) => some (.nothing, b)
    | some (it', some p) =>
      if it'.purpose ≠ .answer then some (.nothing, b)
      else if it'.klass ≠ 1 then loop lists len c n b it'
      else
        match (if it'.type = 1 then some 4 else if it'.type = 28 then some 16 else none) with
        | none => loop lists len c n b it'
        | some k =>
          match rowData b p with
          | none => none
          | some row =>
            if row + k ≤ b.length then
              match IpChunk.find lists ((b.drop row).take k) with
              | none => loop lists len c n b it'
              | some (ty, data) =>
                if ty = typeBlock then some (.filtered, b)
                else if ty = typeSubstitute then
                  match data with
                  | none => none
                  | some d => if k ≤ d.length then loop lists len c n (put b row (d.take k)) it' else none
                else loop lists len c n b it'
            else none

/-- ipmisc.c 52-130 `IPMisc_Process`: the verdict and the buffer afterwards. -/
def process (lists : IpChunk.Chunk) (blockNegative : Bool) (b : List Byte) (len : Nat) :
    Option (Verdict × List Byte) :=
  if initOk len then
    match b[3]?, counts b with
    | some f, some c =>
      if blockNegative ∧ f.toNat % 16 ≠ 0 then some (.negative, b)
      else
        match gotoAnswers b len c Itr.init with
        | none => none
        | some it => loop lists len c (c.all + 2) b it
    | _, _ => none
  else some (.nothing, b)

end Verif.IpMisc

namespace Verif.IpMisc

/-- A configured entry: `BlockIP ip` or `IPSubstituting ip,sub` (or a line of an `IPSubstitutingFile`). -/
inductive Line where
  | block (ip : List Byte)
  | subst (ip sub : List Byte)
deriving DecidableEq, Repr

/-- ipmisc.c 228-318 `IpMiscMapping_Load`: the entries one after the other. -/
def load : IpChunk.Chunk → List Line → Option IpChunk.Chunk
  | c, [] => some c
  | c, .block ip :: ls => (addBlock c ip).bind fun c' => load c' ls
  | c, .subst ip sub :: ls => (addSubstitute c ip sub).bind fun c' => load c' ls

end Verif.IpMisc
