import Verif.Model.CBase
/-! Who may read and write the files the program makes (main.c 322-325, logs.c 54-60, 120-128, domainstatistic.c 238, downloader.c 53-67, 265, utils.c 1022-1028,
dnscache.c 293, common.h 219).  POSIX: a new file has the permissions asked for without those the mask withholds; `fopen` asks for reading and writing
for everybody; an existing file keeps what it has. -/

namespace Verif.Permissions

/-- `rwxrwxrwx`: owner, group, others; bit 0 is the last one. -/
abbrev Mode := BitVec 9

/-- The files the program makes. -/
inductive Kind where
  /-- logs.c 58, 125 -/
  | log
  /-- domainstatistic.c 238 -/
  | statistic
  /-- downloader.c 53, 67, 265, utils.c 1028: hosts and group files, in one piece or in parts -/
  | download
  /-- dnscache.c 293, common.h 219 -/
  | cache
deriving DecidableEq, Repr

/-- What is asked for: `fopen`: 0666; `OPEN_FILE`: `S_IRWXU`. -/
def asks : Kind → Mode
  | .cache => 0b111000000
  | _ => 0b110110110

/-- The mask, and the permissions of the files there are. -/
structure Sys where
  mask : Mode
  files : List Byte → Option Mode

/-- What the program does with files: it opens one for writing (made if it is not there), renames one (logs.c 120, downloader.c 81-82), removes one. -/
inductive Ev where
  | opens (k : Kind) (p : List Byte)
  | renames (p q : List Byte)
  | removes (p : List Byte)
deriving DecidableEq, Repr

def put (f : List Byte → Option Mode) (p : List Byte) (m : Option Mode) : List Byte → Option Mode := fun q => if q = p then m else f q

/-- main.c 310-329 `DaemonInit`: in the background nothing is withheld. -/
def startUp (daemon forked : Bool) (s : Sys) : Sys := if daemon && forked then { s with mask := 0 } else s

/-- Simplified: the calls succeed (if they fail no file is made). -/
def step (s : Sys) : Ev → Sys
  | .opens k p =>
    match s.files p with
    | some _ => s
    | none => { s with files := put s.files p (some (asks k &&& ~~~ s.mask)) }
  | .renames p q =>
    match s.files p with
    | none => s
    | some m => { s with files := put (put s.files p none) q (some m) }
  | .removes p => { s with files := put s.files p none }

def run (s : Sys) (es : List Ev) : Sys := es.foldl step s

end Verif.Permissions
