import Verif.Model.MsgContext
import Verif.Model.Parser
import Verif.Model.Generator
/-! Model of `IHeader_Fill` and `MsgContext_AddFakeEdns` (iheader.c). -/

namespace Verif.Msg
open Parser Name

variable {Addr : Type}

/-- The memory as a function of the offset.  Decoding a name reads at most three bytes behind the message
(`Name.reads_inside_partial`), which lie inside the buffer `b`. -/
def memAt (b : List Byte) (i : Nat) : Byte := b.getD i 0

/-- What `h->Domain` holds as a C string after `buf` was written to its start.  Simplification: the bytes
behind the end of the old text are not represented. -/
def domainAfter (buf old : List Byte) : List Byte := (buf ++ old.drop buf.length).takeWhile (· ≠ 0)

/-- iheader.c 47-80: one round of the loop.  `.inl code`: the function returns.  `none`: the name does not
end within `fuel` steps, or memory behind the buffer is read. -/
def fillStep (b : List Byte) (len fuel : Nat) (h : Ctx Addr) (it : Itr) (p : Nat) : Option ((Int × Ctx Addr) ⊕ Ctx Addr) :=
  match it.purpose with
  | .question =>
    if it.klass ≠ 1 then some (.inl (-48, h))
    else
      match (getHostName (memAt b) len p (some 256) fuel).out with
      | .noFuel | .oob => none
      | .fail buf => some (.inl (-46, { h with domain := domainAfter buf h.domain }))
      | .ok _ buf =>
        match skipAt b 12 with
        | none => none
        | some k =>
          match u16At b (12 + k) with
          | none => none
          | some t =>
            let d := strToLower (domainAfter buf h.domain)
            some (.inr { h with domain := d, hash := bkdrHash d, type := t })
  | .additional => some (.inr (if it.type = 41 then { h with edns := true } else h))
  | _ => some (.inr h)

/-- iheader.c 47-80: the loop, at most `n` rounds. -/
def fillLoop (b : List Byte) (len : Nat) (c : Counts) (fuel : Nat) : Nat → Itr → Ctx Addr →
    Option ((Int × Ctx Addr) ⊕ Ctx Addr)
  | 0, _, _ => none
  | n + 1, it, h =>
    match next b len c it with
    | none => none
    | some (_, none) => some (.inr h)
    | some (it', some p) =>
      match fillStep b len fuel h it' p with
      | none => none
      | some (.inl r) => some (.inl r)
      | some (.inr h') => fillLoop b len c fuel n it' h'

/-- iheader.c 21-103 `IHeader_Fill` for a message in the first `len` bytes of the buffer `b` behind the
header `h`.  When it fails, `EntityLength` and the client's address keep their old values, so that the
message is then what lies in as many bytes as the previous message had. -/
def fill (h : Ctx Addr) (ret : Bool) (b : List Byte) (len : Nat) (back : Option Addr) (sock : Nat)
    (agent : List Byte) (fuel : Nat) : Option (Int × Ctx Addr) :=
  let h0 : Ctx Addr := { h with edns := false, entity := b.take h.entity.length }
  if initOk len = false then some (-31, h0)
  else
    match counts b with
    | none => none
    | some c =>
      match fillLoop b len c fuel (c.all + 1) Itr.init h0 with
      | none => none
      | some (.inl r) => some r
      | some (.inr h1) =>
        some (0, { h1 with returnHeader := ret, back := back, sock := sock, agent := agent.take 47,
                           entity := b.take len })

/-- iheader.c 113-143 `MsgContext_AddFakeEdns`; `cap` is the room for the message; the loop is given `n`
rounds. -/
def addFakeEdns (ap : Bool) (cap n : Nat) (m : Ctx Addr) : Option (Ctx Addr) :=
  if ap = false ∨ m.edns = true then some m
  else
    match Generator.addFakeEdns cap m.entity n with
    | none => none
    | some g => some { m with entity := g.out, edns := true }

end Verif.Msg
