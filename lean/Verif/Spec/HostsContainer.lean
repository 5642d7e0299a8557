import Verif.Spec.StringChunk
import Verif.Spec.IpText
import Verif.Model.HostsContainer
/-! Hosts data as a list of entries (only the data types of the model are used). -/

namespace Verif.Hosts
open StringChunk IpText

/-- One line's meaning: for a name, an address, an alias, an exclusion or a list. -/
structure Entry where
  name : List Byte
  type : HType
  data : Data
deriving DecidableEq, Repr

/-- The entries that apply to a queried name, in order: those written under exactly this name; if there
are none, those of the first pattern in the data that matches it. -/
def entriesFor (fnm : List Byte → List Byte → Bool) (es : List Entry) (name : List Byte) : List Entry :=
  if ∃ e ∈ es, e.name = name ∧ ¬ IsPattern e.name then es.filter (fun e => e.name = name)
  else
    match es.find? (fun e => decide (IsPattern e.name) && fnm e.name name) with
    | none => []
    | some p => es.filter (fun e => e.name = p.name)

/-- Which of the entries of a name is used for a type: the first one if it has that type, otherwise the
last one that has it. -/
def Used (l : List Entry) (ty : HType) (e : Entry) : Prop :=
  e.type = ty ∧ (l.head? = some e ∨
    (∀ f ∈ l.head?, f.type ≠ ty) ∧ ∃ before after, l = before ++ e :: after ∧ ∀ x ∈ after, x.type ≠ ty)

/-- Blanks and tabs, line feeds and so on. -/
def Blank (c : Byte) : Prop := c = 32 ∨ (9 ≤ c ∧ c ≤ 13)

/-- A word: not empty, no blanks, at most 128 bytes. -/
def Word (w : List Byte) : Prop := w ≠ [] ∧ w.length ≤ 128 ∧ ∀ c ∈ w, ¬ Blank c

/-- `line` consists of blanks, the word `w`, at least one blank, the word `n`, and whatever follows a
blank. -/
def Line (line w n : List Byte) : Prop :=
  Word w ∧ Word n ∧ ∃ s1 s2 rest, line = s1 ++ (w ++ (s2 ++ (n ++ rest))) ∧
    (∀ c ∈ s1, Blank c) ∧ s2 ≠ [] ∧ (∀ c ∈ s2, Blank c) ∧ (∀ c ∈ rest.head?, Blank c)

/-- The bytes of an IPv4 address mapped into IPv6 (RFC 4291, 2.5.5.2). -/
def Mapped (a b c d : Nat) : List Byte :=
  List.replicate 10 0 ++ [255, 255] ++ [UInt8.ofNat a, UInt8.ofNat b, UInt8.ofNat c, UInt8.ofNat d]

/-- Letters, digits, hyphens and dots. -/
def NameChar (c : Byte) : Prop := (65 ≤ c ∧ c ≤ 90) ∨ (97 ≤ c ∧ c ≤ 122) ∨ (48 ≤ c ∧ c ≤ 57) ∨ c = 45 ∨ c = 46

/-- What the first word of a line says. -/
inductive Says : List Byte → HType → Data → Prop where
  | v4 {w : List Byte} {a b c d : Nat} (h : V4Text w a b c d) (ha : a ≤ 255) (hb : b ≤ 255) (hc : c ≤ 255) (hd : d ≤ 255) :
      Says w .a (.addr (some (Mapped a b c d)))
  | v6 {w : List Byte} {vs : List Nat} {a : List Byte} (h : V6Text w vs) (ha : V6Bytes a vs) :
      Says w .aaaa (.addr (some a))
  | alias {w : List Byte} (h : ∀ c ∈ w, NameChar c) (hl : ∃ c ∈ w, (65 ≤ c ∧ c ≤ 90) ∨ (97 ≤ c ∧ c ≤ 122)) :
      Says w .cname (.text w)
  | excluded : Says [64, 64] .excluded .nothing
  | list {t : List Byte} (ht : t ≠ []) (h : (62 : Byte) ∉ t) : Says (60 :: t ++ [62]) .goodIpList (.text t)

/-- The entry a line stands for. -/
def LineEntry (line : List Byte) (e : Entry) : Prop := ∃ w, Line line w e.name ∧ Says w e.type e.data

/-- A line with at most one word (which says nothing). -/
def OneWord (line : List Byte) : Prop :=
  ∃ s1 w s2, line = s1 ++ (w ++ s2) ∧ w.length ≤ 128 ∧ (∀ c ∈ s1, Blank c) ∧ (∀ c ∈ w, ¬ Blank c) ∧ (∀ c ∈ s2, Blank c)

/-- A word that can be none of the above: it starts like neither a number nor a list nor an exclusion and
has a byte no name has. -/
def Foreign (w : List Byte) : Prop :=
  (∀ c ∈ w.head?, ¬ ((48 ≤ c ∧ c ≤ 58) ∨ (65 ≤ c ∧ c ≤ 70) ∨ (97 ≤ c ∧ c ≤ 102) ∨ c = 60)) ∧
  w.take 2 ≠ [64, 64] ∧ ∃ c ∈ w, ¬ NameChar c

/-- Lines and entries one by one. -/
inductive Lines : List (List Byte) → List Entry → Prop where
  | nil : Lines [] []
  | skip {l : List Byte} {ls : List (List Byte)} {es : List Entry} (h : OneWord l) (hs : Lines ls es) : Lines (l :: ls) es
  | foreign {l w n : List Byte} {ls : List (List Byte)} {es : List Entry} (h : Line l w n) (hw : Foreign w)
      (hs : Lines ls es) : Lines (l :: ls) es
  | cons {l : List Byte} {e : Entry} {ls : List (List Byte)} {es : List Entry} (h : LineEntry l e) (hs : Lines ls es) :
      Lines (l :: ls) (e :: es)

end Verif.Hosts
