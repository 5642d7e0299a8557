import Verif.Model.StringList
/-! Splitting and trimming, without any memory.  Of the model only the operations are used. -/

namespace Verif.StringList

/-- `s` consists of `ps` with single delimiters in between; the pieces are free of delimiters. -/
inductive Split (d : List Byte) : List Byte → List (List Byte) → Prop
  | last {s : List Byte} : (∀ c ∈ s, c ∉ d) → Split d s [s]
  | cons {s r : List Byte} {x : Byte} {ps : List (List Byte)} : (∀ c ∈ s, c ∉ d) → x ∈ d → Split d r ps →
      Split d (s ++ x :: r) (s :: ps)

def Blank (g s : List Byte) : Prop := ∀ c ∈ s, c ∈ g

/-- `t` is `s` without garbage at both ends. -/
def Trimmed (g s t : List Byte) : Prop :=
  ∃ a b, s = a ++ t ++ b ∧ Blank g a ∧ Blank g b ∧ (∀ c, t.head? = some c → c ∉ g) ∧ (∀ c, t.getLast? = some c → c ∉ g)

/-- Every string that is not blank is trimmed, the others are left out. -/
inductive Trims (g : List Byte) : List (List Byte) → List (List Byte) → Prop
  | nil : Trims g [] []
  | blank {s : List Byte} {ss ts : List (List Byte)} : Blank g s → Trims g ss ts → Trims g (s :: ss) ts
  | keep {s t : List Byte} {ss ts : List (List Byte)} : Trimmed g s t → t ≠ [] → Trims g ss ts → Trims g (s :: ss) (t :: ts)

/-- White space. -/
def white : List Byte := str "\t \r\n"

/-- ASCII capital letters become small ones. -/
def Lowered (s t : List Byte) : Prop :=
  t.length = s.length ∧ ∀ (i : Nat) (c : Byte), s[i]? = some c →
    t[i]? = some (if 'A'.toNat ≤ c.toNat ∧ c.toNat ≤ 'Z'.toNat then c + 32 else c)

/-- What an operation makes of a list of strings. -/
def Means (L : List (List Byte)) : Op → List (List Byte) → Prop
  | .add s d, L' => ∃ ps, Split (d.getD []) s ps ∧ L' = L ++ ps
  | .append t d, L' =>
    (L = [] ∧ L' = []) ∨ ∃ I x ps, L = I ++ [x] ∧ Split (d.getD []) (x ++ t) ps ∧ L' = I ++ ps
  | .trim g, L' => Trims (g.getD white) L L'
  | .lower, L' => L'.length = L.length ∧ ∀ (i : Nat) (s t : List Byte), L[i]? = some s → L'[i]? = some t → Lowered s t
  | .clear, L' => L' = []

inductive Meaning : List (List Byte) → List Op → List (List Byte) → Prop
  | nil {L : List (List Byte)} : Meaning L [] L
  | cons {L L1 L2 : List (List Byte)} {o : Op} {os : List Op} : Means L o L1 → Meaning L1 os L2 → Meaning L (o :: os) L2

/-- Texts are C strings. -/
def Op.Clean : Op → Prop
  | .add s _ => (0 : Byte) ∉ s
  | .append t _ => (0 : Byte) ∉ t
  | _ => True

/-- Bytes handed over by an operation. -/
def Op.size : Op → Nat
  | .add s _ => s.length + 1
  | .append t _ => t.length + 1
  | _ => 0

/-- So little text that no `int` overflows. -/
def Small (os : List Op) : Prop := ((os.map Op.size).sum + 1) * (os.length + 1) ≤ 2147483647

end Verif.StringList
