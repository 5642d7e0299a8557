import Verif.Model.Statistic
import Verif.Model.ReplaceStr
/-! Model of the page of statistics as a file: the template it is made from (domainstatistic.c 38-85, utils.c 668-706),
and how it is written again and again (domainstatistic.c 87-183).  The table of the counters is that of
`Model/Statistic.lean`. -/

namespace Verif.StatPage
open Statistic

/-- What becomes of the template. -/
inductive Template where
  /-- There will be no statistics. -/
  | unusable
  | parts (pre post : List Byte)
  /-- Memory outside the buffer is written or read. -/
  | undefined
deriving DecidableEq, Repr

/-- domainstatistic.c 38-85 `GetPreAndPost`: the file has `size` bytes when it is measured (utils.c 668-685; 0 if it cannot
be opened) and the contents `c` when it is read (utils.c 687-706; `none` if it cannot be opened).  The buffer has one byte
more than measured, and is cleared before.  If it is filled to the last byte and there is no zero among these, the texts in
it do not end.  Files are shorter than 2^31, and there is memory for them. -/
def template (size : Nat) (c : Option (List Byte)) (marker : List Byte) : Template :=
  if size = 0 then .unusable
  else match c with
    | none => .unusable
    | some c =>
      if size + 1 < c.length ∨ (c.length = size + 1 ∧ (0 : Byte) ∉ c) then .undefined
      else
        let s := c.takeWhile (· ≠ 0)
        match ReplaceStr.strstr marker s with
        | none => .unusable
        | some k => .parts (s.take k) (s.drop (k + marker.length))

/-- domainstatistic.c 102-109: what is written before the rows. -/
def headText (pre : List Byte) (t0 now : Nat) : List Byte :=
  pre ++ str "<script type=\"text/javascript\">   var StartUpTime = " ++ IpText.dec t0 ++ str ";   var LastStatistic = " ++ IpText.dec now ++
    str ";   var InfoArray = ["

/-- domainstatistic.c 157-178: what is written behind the rows. -/
def tailText (post : List Byte) (s : Info) : List Byte :=
  str "];var Sum = { Total      :   " ++ IpText.dec s.count ++ str ",RaF        :   " ++ IpText.dec s.refused ++ str ",Hosts      :   " ++
    IpText.dec s.hosts ++ str ",Cache      :   " ++ IpText.dec s.cache ++ str ",UDP        :   " ++ IpText.dec s.udp ++ str ",TCP        :   " ++
    IpText.dec s.tcp ++ str ",BlockedMsg :   " ++ IpText.dec s.blocked ++ str "};</script>" ++ post

/-- domainstatistic.c 102-178: the page; `none`: a sum overflows. -/
def pageText (pre post : List Byte) (t0 now : Nat) (st : State) : Option (List Byte) :=
  st.sum.map (fun s => headText pre t0 now ++ rowsText st.rows ++ tailText post s)

/-- Writing `new` over a file from its beginning: what is behind stays. -/
def over (new old : List Byte) : List Byte := new ++ old.drop new.length

/-- What happens, one after the other. -/
inductive Ev where
  /-- A call of `DomainStatistic_Add`. -/
  | query (d : List Byte) (t : Kind)
  /-- domainstatistic.c 87-183 `DomainStatistic_Works` at the time `now`; `before`: the calls of `DomainStatistic_Add` up to
  line 113, `during`: those from there up to line 155. -/
  | page (now : Nat) (before during : List (List Byte × Kind))

/-- The table and the file. -/
structure St where
  table : State
  file : List Byte

/-- domainstatistic.c 238-250: the file is opened for writing, which empties it. -/
def St.init (hash : List Byte → UInt32) : St := ⟨State.init hash, []⟩

/-- Some calls of `DomainStatistic_Add`. -/
def adds (fnm : List Byte → List Byte → Bool) (st : State) : List (List Byte × Kind) → Option State
  | [] => some st
  | q :: qs => match add fnm st q.1 q.2 with | none => none | some st => adds fnm st qs

/-- One event.  domainstatistic.c 95 `rewind`, 111-113 and 153-155 `SkipStatistic`, 180 `fflush`. -/
def step (fnm : List Byte → List Byte → Bool) (pre post : List Byte) (t0 : Nat) (st : St) : Ev → Option St
  | .query d t => (add fnm st.table d t).map (fun tb => { st with table := tb })
  | .page now before during =>
    match adds fnm st.table before with
    | none => none
    | some tb =>
      match adds fnm { tb with skip := true } during with
      | none => none
      | some tb =>
        match pageText pre post t0 now tb with
        | none => none
        | some p => some ⟨{ tb with skip := false }, over p st.file⟩

def run (fnm : List Byte → List Byte → Bool) (pre post : List Byte) (t0 : Nat) (st : St) : List Ev → Option St
  | [] => some st
  | e :: es => match step fnm pre post t0 st e with | none => none | some st => run fnm pre post t0 st es

/-- The file while `DomainStatistic_Works` runs, when `n` bytes of the new page have got there (the C library writes them when
its buffer is full). -/
def midway (fnm : List Byte → List Byte → Bool) (pre post : List Byte) (t0 : Nat) (st : St) (now : Nat) (before during : List (List Byte × Kind))
    (n : Nat) : Option (List Byte) :=
  match adds fnm st.table before with
  | none => none
  | some tb =>
    match adds fnm { tb with skip := true } during with
    | none => none
    | some tb => (pageText pre post t0 now tb).map (fun p => over (p.take n) st.file)

end Verif.StatPage
