import Verif.Model.Startup
import Verif.Model.Permissions
/-! Model of the option `-p` (main.c 346-364, 425-429), for Linux. -/

namespace Verif.Prepare
open Startup

/-- What is done: the directory is made (path and permissions), a text is printed. -/
inductive Act where
  | mkdir (path : List Byte) (mode : Permissions.Mode)
  | print (text : List Byte)
deriving DecidableEq, Repr

/-- main.c 346-364 `PrepareEnvironment`, for the answer of `getpwuid` (see `Startup.configDir`); `error`: `mkdir` fails for this
reason.  `none`: undefined, such as a directory that does not fit into 2048 bytes. -/
def prepare (home : Option (Option (List Byte))) (error : Option (List Byte)) : Option (List Act) :=
  match configDir home with
  | none => none
  | some d =>
    if d.length + 1 ≤ 2048 then
      some ([.mkdir d 0b111100100] ++
        (match error with
          | none => []
          | some e => [.print (str "mkdir : " ++ d ++ str " failed : " ++ e ++ str "\n")]) ++
        [.print (str "Please put configure file into `" ++ d ++ str "' and rename it to `config'.\n")])
    else none

/-- main.c 367-437: the whole program, if `-p` is met: what is done before `exit(0)`, but for the complaints about words before it.
`none`: undefined, or the program does something else. -/
def program (home : Option (Option (List Byte))) (error : Option (List Byte)) (argv : List (List Byte)) : Option (List Act) :=
  match args noFlags [] argv with
  | .prepare => prepare home error
  | _ => none

end Verif.Prepare
