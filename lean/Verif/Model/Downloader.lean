import Verif.Model.ReadLine
import Verif.Model.HostsContainer
/-! Model of `downloader.c` (with libcurl), of the file copies in `utils.c` and of how `dynamichosts.c` fetches and loads
hosts.  Files are a function from paths to contents.  What the system and the network answer is a parameter (`World`): any
call to open, write, remove or rename may fail, any attempt to download may break off anywhere.  Every byte is a store of its
own, and all states the files go through are kept (`past`): these are the points where the program can be killed, and what
other programs can see.  Simplified: memory is always found; reading an open file does not fail. -/

namespace Verif.Downloader

abbrev Path := List Byte

/-- The files: their contents, `none` for a path where there is no file. -/
abbrev Files := Path → Option (List Byte)

def Files.set (f : Files) (p : Path) (c : Option (List Byte)) : Files := fun q => if q = p then c else f q

/-- What `curl_easy_perform` does: whether there is a handle at all, the bytes it hands over before it ends, and whether it
returns `CURLE_OK`. -/
structure Attempt where
  handle : Bool
  data : List Byte
  ok : Bool
deriving DecidableEq, Repr

/-- What is outside of the program. -/
structure World where
  /-- Whether the n-th call to open, write, remove or rename succeeds. -/
  works : Nat → Bool
  /-- The n-th attempt to download. -/
  net : Nat → Path → Attempt
  /-- utils.c 917-961 `ExpandPath` in a buffer of 384 bytes; `none` if it fails. -/
  expand : Path → Option Path
  /-- dynamichosts.c 139-147: what the script of the user, if there is one, does to the files. -/
  script : Files → Files

structure St where
  files : Files
  /-- All states of the files, the newest first. -/
  past : List Files
  calls : Nat
  attempts : Nat

def start (f : Files) : St := ⟨f, [f], 0, 0⟩

def St.called (s : St) : St := { s with calls := s.calls + 1 }

def St.store (s : St) (f : Files) : St := { s with files := f, past := f :: s.past }

/-- C library `fopen(p, "w")`. -/
def openW (w : World) (p : Path) (s : St) : Bool × St :=
  if w.works s.calls then (true, s.called.store (s.files.set p (some []))) else (false, s.called)

/-- C library `fopen(p, "a+")`. -/
def openA (w : World) (p : Path) (s : St) : Bool × St :=
  if w.works s.calls then (true, s.called.store (s.files.set p (some ((s.files p).getD [])))) else (false, s.called)

/-- C library `fopen(p, "r")` and everything that can be read. -/
def openR (w : World) (p : Path) (s : St) : Option (List Byte) × St :=
  if w.works s.calls then (s.files p, s.called) else (none, s.called)

/-- C library `fputc` to the end of a file; the return value is not looked at anywhere. -/
def putc (w : World) (p : Path) (c : Byte) (s : St) : St :=
  if w.works s.calls then s.called.store (s.files.set p ((s.files p).map (· ++ [c]))) else s.called

/-- The bytes one by one. -/
def puts (w : World) (p : Path) : List Byte → St → St
  | [], s => s
  | c :: cs, s => puts w p cs (putc w p c s)

/-- C library `remove`. -/
def remove (w : World) (p : Path) (s : St) : St :=
  if w.works s.calls then s.called.store (s.files.set p none) else s.called

/-- C library `rename`. -/
def rename (w : World) (p q : Path) (s : St) : St :=
  match w.works s.calls, s.files p with
  | true, some c => s.called.store ((s.files.set q (some c)).set p (if p = q then some c else none))
  | _, _ => s.called

/-- utils.c 1018-1052 `CopyAFile`, whether it returned 0.  `none`: a file that is not empty is appended to itself without
end. -/
def copyAFile (w : World) (src dst : Path) (append : Bool) (s : St) : Option Bool × St :=
  match openR w src s with
  | (none, s) => (some false, s)
  | (some c, s) =>
    match (if append then openA w dst s else openW w dst s) with
    | (false, s) => (some false, s)
    | (true, s) =>
      if src = dst then (if append ∧ c ≠ [] then (none, s) else (some true, s))
      else (some true, puts w dst c s)

/-- `strstr(URL, "://")` and what follows the colon. -/
def afterScheme : List Byte → Option (List Byte)
  | [] => none
  | c :: r => if c = 58 ∧ r.take 2 = [47, 47] then some r else afterScheme r

/-- utils.c 972-1016 `GetLocalPathFromURL` (not Windows). -/
def localPath (w : World) (url : Path) : Option Path :=
  match afterScheme url with
  | none => none
  | some r =>
    let p := 47 :: r.dropWhile (· == 47)
    if p.length + 1 > 384 then none else w.expand p

/-- downloader.c 198-296 `GetFromInternet_Base` (libcurl): the return value. -/
def base (w : World) (url file : Path) (s : St) : Int × St :=
  match openW w file s with
  | (false, s) => (-1, s)
  | (true, s) =>
    let a := w.net s.attempts url
    let s := { s with attempts := s.attempts + 1 }
    if a.handle = false then (-2, s)
    else
      let s := puts w file a.data s
      (if a.ok then 0 else -3, s)

/-- downloader.c 43-51 and 131-137: the names of the temporary files. -/
def tmp (file : Path) : Path := file ++ [46, 116, 109, 112]

/-- downloader.c 139-177: the attempts.  `none`: not finished after `fuel` attempts. -/
def tryLoop (w : World) (url file : Path) (append : Bool) : Nat → Int → St → Option Bool × St
  | 0, times, s => if times = 0 then (some false, s) else (none, s)
  | fuel + 1, times, s =>
    if times = 0 then (some false, s)
    else
      match base w url (tmp file) s with
      | (r, s) =>
        if r = 0 then copyAFile w (tmp file) file append s
        else tryLoop w url file append fuel (if times > 0 then times - 1 else times) s

/-- downloader.c 89-185 `GetFromInternet_SingleFile`, whether it returned 0.  `none`: not finished. -/
def single (w : World) (fuel : Nat) (url file : Path) (append : Bool) (times : Int) (s : St) : Option Bool × St :=
  if url.take 4 = [102, 105, 108, 101] then
    match localPath w url with
    | none => (some false, s)
    | some p => copyAFile w p file append s
  else
    match tryLoop w url file append fuel times s with
    | (none, s) => (none, s)
    | (some b, s) => (some b, remove w (tmp file) s)

/-- downloader.c 63-78: the loop over the sources; `state` is `State`. -/
def multiLoop (w : World) (fuel : Nat) (temp : Path) (times : Int) : List Path → Bool → St → Option Bool × St
  | [], state, s => (some state, s)
  | u :: us, state, s =>
    match single w fuel u temp true times s with
    | (none, s) => (none, s)
    | (some b, s) =>
      match openA w temp s with
      | (false, s) => (some (state || b), s)
      | (true, s) => multiLoop w fuel temp times us (state || b) (putc w temp 10 s)

/-- downloader.c 31-87 `GetFromInternet_MultiFiles`, whether it returned 0.  `none`: not finished. -/
def multi (w : World) (fuel : Nat) (urls : List Path) (file : Path) (times : Int) (s : St) : Option Bool × St :=
  match openW w (tmp file) s with
  | (false, s) => (some false, s)
  | (true, s) =>
    match multiLoop w fuel (tmp file) times urls false s with
    | (none, s) => (none, s)
    | (some false, s) => (some false, s)
    | (some true, s) => (some true, rename w (tmp file) file (remove w file s))

/-- dynamichosts.c 42-100 `DynamicHosts_Load`: the table that is used afterwards.  Outer `none` is undefined behaviour. -/
def load (w : World) (file : Path) (old : Option Hosts.Cont) (s : St) : Option (Option Hosts.Cont) × St :=
  match openR w file s with
  | (none, s) => (some old, s)
  | (some c, s) => ((ReadLine.readFile 320 c).bind (fun ls => (Hosts.loadAll Hosts.initCont ls).map some), s)

/-- dynamichosts.c 115-165 `GetHostsFromInternet_Thread` (the other lists that are reloaded with it are in `Reload`). -/
def update (w : World) (fuel : Nat) (urls : List Path) (file : Path) (old : Option Hosts.Cont) (s : St) :
    Option (Option Hosts.Cont) × St :=
  match multi w fuel urls file (-1) s with
  | (some true, s) => load w file old (s.store (w.script s.files))
  | (_, s) => (some old, s)

/-- dynamichosts.c 167-230 `DynamicHosts_Init`: the table that is used until the first update. -/
def init (w : World) (file : Path) (s : St) : Option (Option Hosts.Cont) × St :=
  match openR w file s with
  | (none, s) => (some none, s)
  | (some _, s) => load w file none s

end Verif.Downloader
