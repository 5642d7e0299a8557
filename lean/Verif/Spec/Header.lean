import Verif.Model.IHeader
import Verif.Spec.Message
import Verif.Spec.Name
/-! C34: what a message with any questions tells about itself. -/

namespace Verif.Msg
open Name Message

/-- The names the questions, which start at `p`, ask for. -/
inductive Named (mem : Nat → Byte) (len : Nat) : Nat → List Question → List (List (List Byte)) → Prop where
  | nil {p : Nat} : Named mem len p [] []
  | cons {p k : Nat} {q : Question} {qs : List Question} {ls : List (List Byte)} {names : List (List (List Byte))} (h : Denotes mem len p ls k)
      (ht : Named mem len (p + q.bytes.length) qs names) : Named mem len p (q :: qs) (ls :: names)

/-- A name as text in lower case, as far as it has no zero byte. -/
def plainName (ls : List (List Byte)) : List Byte := ((text ls).takeWhile (· ≠ 0)).map fun c => if 65 ≤ c ∧ c ≤ 90 then c + 32 else c

/-- What is taken for the question: the name of the last of the questions before the first that is not of class IN, and the type of the first. -/
def asked (qs : List Question) (names : List (List (List Byte))) : Option (List Byte × Nat) :=
  match (qs.zip names).takeWhile (fun x => x.1.klass == 1) with
  | [] => none
  | x :: l => some (plainName ((x :: l).getLast (by simp)).2, x.1.type)

/-- A header about a question. -/
def About {Addr : Type} (h : Ctx Addr) : Option (List Byte × Nat) → Ctx Addr
  | none => h
  | some (d, t) => { h with domain := d, hash := bkdrHash d, type := t }

end Verif.Msg
