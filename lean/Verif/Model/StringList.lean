import Verif.Model.StableBuffer
/-! Model of `stringlist.c` and of the iterators in `stablebuffer.c`: NUL-terminated strings one behind
the other in the blocks of stable storage.  Simplification: memory is always found.  `none` is undefined
behaviour everywhere: a read of memory that was never written or lies outside a block, a write outside a
block, or an `int` overflow. -/

namespace Verif.StringList
open StableBuffer

/-- A string read by the C library from the start of this memory. -/
def cstr : List (Option Byte) → Option (List Byte)
  | [] => none
  | none :: _ => none
  | some c :: r => if c = 0 then some [] else (cstr r).map (c :: ·)

/-- The string at an address. -/
def strAt (bs : Buf) (p : Pos) : Option (List Byte) :=
  match bs[p.1]? with
  | none => none
  | some b => cstr (b.mem.drop p.2)

/-- stringlist.c 5-27 `Divide` on the memory where the string starts: each `strpbrk` goes on behind the
byte that was replaced, so every delimiter before the terminating NUL is replaced. -/
def divideL (d : List Byte) : List (Option Byte) → Option (List (Option Byte))
  | [] => none
  | none :: _ => none
  | some c :: r =>
    if c = 0 then some (some c :: r)
    else (divideL d r).map ((if c ∈ d then some 0 else some c) :: ·)

/-- stringlist.c 5-27 `Divide`; no delimiters (NULL) is `none`. -/
def divide (d : Option (List Byte)) (bs : Buf) (p : Pos) : Option Buf :=
  match d with
  | none => some bs
  | some d =>
    match bs[p.1]? with
    | none => none
    | some b => (divideL d (b.mem.drop p.2)).map fun m => bs.set p.1 { b with mem := b.mem.take p.2 ++ m }

/-- `sb->Add(sb, …, FALSE)` followed by `Divide`. -/
def addBytes (bs : Buf) (bytes : List (Option Byte)) (d : Option (List Byte)) : Option Buf :=
  match StableBuffer.add true bs (some bytes) bytes.length false with
  | some (bs', some p) => divide d bs' p
  | _ => none

/-- stringlist.c 51-69 `StringList_Add`, 299-309 of `StringList_Init`. -/
def add (bs : Buf) (s : List Byte) (d : Option (List Byte)) : Option Buf :=
  addBytes bs ((s ++ [0]).map some) d

/-- stringlist.c 328-342, 357-371: from an offset in the first of these blocks, number `i`, to the next
place in use.  stablebuffer.c 137-157 `NextBlock`, 183-202 `IsInCurrentBlock`. -/
def seekL (i off : Nat) : List Block → Option Pos
  | [] => none
  | b :: r => if off < b.used then some (i, off) else seekL (i + 1) 0 r

def seek (bs : Buf) (p : Pos) : Option Pos := seekL p.1 p.2 (bs.drop p.1)

/-- stringlist.c 318-343 `StringListIterator_Next`, from the start. -/
def first (bs : Buf) : Option Pos := seek bs (0, 0)

/-- stringlist.c 318-343 `StringListIterator_Next`, behind the string at `p`. -/
def next (bs : Buf) (p : Pos) : Option (Option Pos) :=
  (strAt bs p).map fun s => seek bs (p.1, p.2 + s.length + 1)

/-- stablebuffer.c 232-254 `RemoveNBytesOfCurrentBlock`, `n` not negative as in all calls. -/
def removeN (bs : Buf) (p : Pos) (n : Nat) : Buf :=
  match bs[p.1]? with
  | none => bs
  | some b =>
    if ¬ p.2 < b.used ∨ p.2 + n > b.used then bs
    else if b.used < n then bs.set p.1 { b with used := 0 }
    else bs.set p.1 ⟨b.mem.take p.2 ++ (b.mem.drop (p.2 + n)).take (b.used - p.2 - n) ++ b.mem.drop (b.used - n), b.used - n⟩

/-- stringlist.c 345-372 `StringListIterator_Remove`. -/
def remove (bs : Buf) (p : Pos) : Option (Buf × Option Pos) :=
  (strAt bs p).map fun s => let bs' := removeN bs p (s.length + 1); (bs', seek bs' p)

/-- A loop over the strings from `p` on, at most `fuel` of them. -/
def itemsFrom : Nat → Buf → Option Pos → Option (List (List Byte))
  | _, _, none => some []
  | 0, _, some _ => none
  | fuel + 1, bs, some p =>
    match strAt bs p, next bs p with
    | some s, some q => (itemsFrom fuel bs q).map (s :: ·)
    | _, _ => none

/-- Bytes in use. -/
def total (bs : Buf) : Nat := (bs.map (·.used)).sum

/-- What a loop with `Next` sees, as in `ToCharPtrArray` (stringlist.c 148-185).  There are not more
strings than bytes. -/
def items (bs : Buf) : Option (List (List Byte)) := itemsFrom (total bs) bs (first bs)

/-- stringlist.c 29-49 `StringList_Count`. -/
def countFrom : Nat → Buf → Option Pos → Option Nat
  | _, _, none => some 0
  | 0, _, some _ => none
  | fuel + 1, bs, some p =>
    match next bs p with
    | some q => (countFrom fuel bs q).map (· + 1)
    | none => none

def count (bs : Buf) : Option Nat := countFrom (total bs) bs (first bs)

/-- utils.c 828-847 `StrNpbrk`: the number of bytes before the one found, `none` for NULL. -/
def strNpbrk (s g : List Byte) : Option Nat :=
  match s.dropWhile (· ∈ g) with
  | [] => none
  | r => some (s.length - r.length)

/-- utils.c 849-872 `StrRNpbrk`. -/
def strRNpbrk (s g : List Byte) : Option Nat :=
  match s.reverse.dropWhile (· ∈ g) with
  | [] => none
  | r => some (r.length - 1)

/-- stringlist.c 212-242: the loop of `StringList_TrimAll`. -/
def trimLoop (g : List Byte) : Nat → Buf → Option Pos → Option Buf
  | _, bs, none => some bs
  | 0, _, some _ => none
  | fuel + 1, bs, some p =>
    match strAt bs p with
    | none => none
    | some s =>
      match strNpbrk s g with
      | none =>
        match remove bs p with
        | none => none
        | some (bs', q) => trimLoop g fuel bs' q
      | some k =>
        let bs1 := removeN bs p k
        match strAt bs1 p with
        | none => none
        | some s1 =>
          let bs2 :=
            match strRNpbrk s1 g with
            | none => bs1
            | some j => removeN bs1 (p.1, p.2 + j + 1) (s1.length - (j + 1))
          match next bs2 p with
          | none => none
          | some q => trimLoop g fuel bs2 q

/-- stringlist.c 197-243 `StringList_TrimAll`; NULL is white space. -/
def trimAll (bs : Buf) (g : Option (List Byte)) : Option Buf :=
  trimLoop (g.getD [9, 32, 13, 10]) (total bs) bs (first bs)

/-- stringlist.c 255-258: the loop of `StringList_LowercaseAll`. -/
def lowerLoop : Nat → Buf → Option Pos → Option Buf
  | _, bs, none => some bs
  | 0, _, some _ => none
  | fuel + 1, bs, some p =>
    match strAt bs p with
    | none => none
    | some s =>
      match StableBuffer.write bs p ((strToLower s).map some) with
      | none => none
      | some bs' =>
        match next bs' p with
        | none => none
        | some q => lowerLoop fuel bs' q

/-- stringlist.c 245-259 `StringList_LowercaseAll`. -/
def lowercaseAll (bs : Buf) : Option Buf := lowerLoop (total bs) bs (first bs)

/-- stringlist.c 108-115: from the byte number `k` of the block down to number 1. -/
def backLoop (mem : List (Option Byte)) : Nat → Option Nat
  | 0 => some 0
  | k + 1 =>
    match mem[k + 1]? with
    | some (some c) => if c = 0 then some (k + 2) else backLoop mem k
    | _ => none

/-- stringlist.c 72-145 `StringList_AppendLast`.  The new string is `malloc`ed, so its bytes behind what
`strcpy` and `strcat` write are uninitialised.  The outer `none` is undefined behaviour; the inner
one a refusal. -/
def appendLast (bs : Buf) (t : List Byte) (d : Option (List Byte)) : Option (Option Buf) :=
  match bs.getLast? with
  | none => some none
  | some b =>
    match backLoop b.mem (b.used - 2) with
    | none => none
    | some l =>
      let half := b.used - l
      match cstr (b.mem.drop l) with
      | none => none
      | some x =>
        let size := t.length + 1 + half - 1
        if size < x.length + t.length + 1 then none
        else
          let new := (x ++ t ++ [0]).map some ++ List.replicate (size - (x.length + t.length + 1)) none
          (addBytes (bs.dropLast ++ [{ b with used := b.used - half }]) new d).map some

/-- stringlist.c 261-264 `StringList_Clear`. -/
def clear (bs : Buf) : Buf := StableBuffer.clear bs

/-! ### Users -/

inductive Op where
  | add (s : List Byte) (d : Option (List Byte))
  | append (t : List Byte) (d : Option (List Byte))
  | trim (g : Option (List Byte))
  | lower
  | clear
deriving DecidableEq, Repr

def step (bs : Buf) : Op → Option Buf
  | .add s d => add bs s d
  | .append t d => (appendLast bs t d).map (·.getD bs)
  | .trim g => trimAll bs g
  | .lower => lowercaseAll bs
  | .clear => some (clear bs)

def run : Buf → List Op → Option Buf
  | bs, [] => some bs
  | bs, o :: os =>
    match step bs o with
    | none => none
    | some b => run b os

end Verif.StringList
