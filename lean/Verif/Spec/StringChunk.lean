import Verif.Model.StringChunk
/-! What a table built by a history of additions means, without hash tables. -/

namespace Verif.StringChunk
variable {δ : Type}

/-- A configured domain text without its leading dot, if it has one. -/
def domainText (s : List Byte) : List Byte := if s.head? = some 46 then s.tail else s

/-- The entry an addition asks for: `addDomain` ignores one leading dot. -/
def Op.entry : Op δ → Entry δ
  | .add s d => ⟨s, d⟩
  | .addDomain s d => ⟨domainText s, d⟩

/-- A key is a pattern when it contains one of `* ? [`. -/
def IsPattern (s : List Byte) : Prop := ∃ c ∈ s, c = 42 ∨ c = 63 ∨ c = 91

instance : DecidablePred IsPattern := fun s =>
  inferInstanceAs (Decidable (∃ c ∈ s, c = 42 ∨ c = 63 ∨ c = 91))

/-- The plain (pattern-free) entries of a history, in order. -/
def plain (ops : List (Op δ)) : List (Entry δ) := (ops.map Op.entry).filter (fun e => !decide (IsPattern e.str))

/-- The pattern entries of a history, in order. -/
def patterns (ops : List (Op δ)) : List (Entry δ) := (ops.map Op.entry).filter (fun e => decide (IsPattern e.str))

/-- `e` is the last element of `l` satisfying `P`. -/
def LastWith (l : List (Entry δ)) (P : Entry δ → Prop) (e : Entry δ) : Prop :=
  ∃ before after, l = before ++ e :: after ∧ P e ∧ ∀ x ∈ after, ¬ P x

/-- A rule for `rule` covers `name`: the domain itself or a proper subdomain. -/
def Covers (rule name : List Byte) : Prop := name = rule ∨ ∃ sub, sub ≠ [] ∧ name = sub ++ 46 :: rule

end Verif.StringChunk
