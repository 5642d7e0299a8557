import Verif.Model.Memory

/-! What it means that memory is handled as it should be. -/

namespace Verif.Memory

/-- Whatever blocks there are before: nothing undefined happens, and afterwards there are the same blocks as before and no others. -/
def Balanced (c : M Unit) : Prop := ∀ h, ∃ h', c h = some ((), h') ∧ h'.live.Perm h.live

/-- Nothing undefined happens, no block is given back that was there before, and afterwards there are `n` blocks more than before. -/
def Leaks (n : Nat) (c : M Unit) : Prop := ∀ h, ∃ h' extra, c h = some ((), h') ∧ h'.live.Perm (extra ++ h.live) ∧ extra.length = n

/-- The names of the blocks that are there have been given out before, each to one block. -/
def Heap.Sound (h : Heap) : Prop := h.live.Nodup ∧ ∀ b ∈ h.live, b < h.next

/-- Every request is granted. -/
def Granted : Ok := fun _ => true

end Verif.Memory
