import Verif.Model.Logs
/-! What a rotated log should be. -/

namespace Verif.Logs

/-- `files` (number and content, oldest first) are new: their numbers increase from `n` on, there was nothing readable
under these numbers, they are there now, and nothing else has changed. -/
def Added (before after : Nat → Slot) : Nat → List (Nat × List Byte) → Prop
  | n, files => (files.map (·.1)).Pairwise (· < ·) ∧ (∀ f ∈ files, n < f.1 ∧ after f.1 = .file f.2 true ∧ ∀ c, before f.1 ≠ .file c true) ∧
      ∀ k, k ∉ files.map (·.1) → after k = before k

/-- Nothing there is hidden from the program. -/
def AllReadable (old : Nat → Slot) : Prop := ∀ k c, old k ≠ .file c false

/-- A file is as long as asked for, and was shorter before its last message. -/
def LongEnough (threshold : Nat) (c : List Byte) : Prop := threshold ≤ c.length

end Verif.Logs
