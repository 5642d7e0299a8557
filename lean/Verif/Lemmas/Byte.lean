import Verif.Model.CBase
/-! A statement about every byte, from its 256 cases. -/

namespace Verif

theorem forall_byte (P : Byte → Prop) (h : ∀ n : Fin 256, P (UInt8.ofNat n)) (c : Byte) : P c := by
  have := h ⟨c.toNat, UInt8.toNat_lt c⟩
  rwa [UInt8.ofNat_toNat] at this

end Verif
