import Verif.Model.Descriptors
/-! What is to become of the tasks (of the model only the types of events are used). -/

namespace Verif.Descriptors

/-- The tasks that were added, in order. -/
def asked (h : List Ev) : List (List Byte) := h.filterMap fun e => match e with | .adds t => some t | _ => none

/-- The script neither reads nor writes through its standard descriptors. -/
def Silent (h : List Ev) : Prop := ∀ us, .script us ∈ h → us = []

end Verif.Descriptors
