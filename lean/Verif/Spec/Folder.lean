import Verif.Model.CBase
/-! The folder of a file (default.en.config 16-19: "`${CONFIGFILEDIRECTORY}' represents the folder in which the configuration file is"). -/

namespace Verif.Startup

/-- `d` is the folder in which the file `path` is, with the slash at its end: what is before the name, or the present one. -/
def Folder (path d : List Byte) : Prop :=
  ∃ name, (47 : Byte) ∉ name ∧ ((path = d ++ name ∧ d.getLast? = some 47) ∨ (path = name ∧ d = [46, 47]))

end Verif.Startup
