import Verif.Model.Permissions
/-! Who should be able to use the files (of the model only the types are used). -/

namespace Verif.Permissions

/-- The file grants nothing that its user wanted to withhold. -/
def Respects (mask mode : Mode) : Prop := ∀ i, mask.getLsbD i = true → mode.getLsbD i = false

/-- Everybody may change the file. -/
def Open (mode : Mode) : Prop := mode.getLsbD 1 = true ∧ mode.getLsbD 4 = true ∧ mode.getLsbD 7 = true

/-- Only its owner may do anything with it. -/
def Private (mode : Mode) : Prop := ∀ i, i < 6 → mode.getLsbD i = false

end Verif.Permissions
