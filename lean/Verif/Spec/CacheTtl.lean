import Verif.Spec.StringChunk
import Verif.Spec.IpText
/-! The documented meaning of `CacheControl`, `OverrideTTL` and `MultipleTTL` (default.en.config
425-500). -/

namespace Verif.CacheTtl
open StringChunk IpText

inductive Mode where
  | active
  | passive
  | none
deriving DecidableEq, Repr

inductive Kind where
  | orig
  | nocache
  | fixed (n : Nat)
  | vari (a b : Nat)
deriving DecidableEq, Repr

/-- A rule: domain specifier, contagiousness, kind. -/
structure Line where
  domain : List Byte
  mode : Mode
  kind : Kind
deriving DecidableEq, Repr

/-- Its domain without a leading dot. -/
def Line.dom (l : Line) : List Byte := domainText l.domain

/-- The lifetime a rule gives to a record with TTL `x`; `none`: the record is not cached. -/
def Kind.ttl (x : Nat) : Kind → Option Nat
  | .orig => some x
  | .nocache => .none
  | .fixed n => some n
  | .vari a b => some (a * x + b)

/-- A word: not empty, no white space. -/
def Word (s : List Byte) : Prop := s ≠ [] ∧ ∀ c ∈ s, ¬ (c = 32 ∨ (9 ≤ c ∧ c ≤ 13))

instance (s : List Byte) : Decidable (Word s) := by unfold Word; infer_instance

/-- White space between words. -/
def Blank (s : List Byte) : Prop := s ≠ [] ∧ ∀ c ∈ s, c = 32 ∨ (9 ≤ c ∧ c ≤ 13)

instance (s : List Byte) : Decidable (Blank s) := by unfold Blank; infer_instance

/-- The prefix of the type that sets the contagiousness. -/
def Mode.text : Mode → List Byte
  | .active => []
  | .passive => str "$"
  | .none => str "$$"

/-- The text behind the contagiousness prefix.  The numbers fit into 32 bits. -/
inductive KindText : List Byte → Kind → Prop where
  | orig : KindText (str "orig") .orig
  | nocache : KindText (str "nocache") .nocache
  | fixed {b s : List Byte} {n : Nat} (hb : Blank b) (hs : DecNum s n) (hn : n < 4294967296) (hl : s.length ≤ 63) :
      KindText (str "fixed" ++ b ++ s) (.fixed n)
  | vari {b s t : List Byte} {m n : Nat} (hb : Blank b) (hs : DecNum s m) (hm : m < 4294967296) (ht : DecNum t n)
      (hn : n < 4294967296) (hl : (s ++ str "x+" ++ t).length ≤ 63) :
      KindText (str "vari" ++ b ++ (s ++ str "x+" ++ t)) (.vari m n)

/-- `s` is the text of the rule `l`: `<DOMAIN> [$[$]]<TYPE> [ARGUMENT]`. -/
inductive LineText : List Byte → Line → Prop where
  | mk {d b k : List Byte} {m : Mode} {kind : Kind} (hd : Word d) (hl : d.length ≤ 127) (hb : Blank b) (hk : KindText k kind) :
      LineText (d ++ b ++ (m.text ++ k)) ⟨d, m, kind⟩

/-- Every line of a configuration with the rule it states. -/
inductive LinesText : List (List Byte) → List Line → Prop where
  | nil : LinesText [] []
  | cons {t : List Byte} {l : Line} {ts : List (List Byte)} {ls : List Line} (h : LineText t l) (hs : LinesText ts ls) :
      LinesText (t :: ts) (l :: ls)

/-- `OverrideTTL n` and `MultipleTTL n` act as a last, general rule (the first one excludes the
second). -/
def withGeneral (ls : List Line) (override multiple : Int) : List Line :=
  if 0 ≤ override then ls ++ [⟨str "*", .passive, .fixed override.toNat⟩]
  else if 1 < multiple then ls ++ [⟨str "*", .passive, .vari multiple.toNat 0⟩]
  else ls

/-- `l` is the rule for `name`: the most specific domain covering it (of several rules for the same
domain the last one), or, if there is none, the first pattern that matches. -/
def Governs (ls : List Line) (fnm : List Byte → List Byte → Bool) (name : List Byte) (l : Line) : Prop :=
  (¬ IsPattern l.dom ∧ Covers l.dom name ∧ (∃ b a, ls = b ++ l :: a ∧ ∀ x ∈ a, x.dom ≠ l.dom) ∧
      ∀ x ∈ ls, ¬ IsPattern x.dom → Covers x.dom name → x.dom.length ≤ l.dom.length) ∨
  ((∀ x ∈ ls, ¬ IsPattern x.dom → ¬ Covers x.dom name) ∧ IsPattern l.dom ∧ fnm l.dom name = true ∧
      ∃ b a, ls = b ++ l :: a ∧ ∀ x ∈ b, IsPattern x.dom → fnm x.dom name = false)

/-- No rule applies to `name`. -/
def Ungoverned (ls : List Line) (fnm : List Byte → List Byte → Bool) (name : List Byte) : Prop :=
  ∀ x ∈ ls, (¬ IsPattern x.dom → ¬ Covers x.dom name) ∧ (IsPattern x.dom → fnm x.dom name = false)

/-- `res` is the lifetime of a record with TTL `x` received in a response for the name `q`; the
record's own rule is the one for the text `own`. -/
inductive Decides (ls : List Line) (fnm : List Byte → List Byte → Bool) (q own : List Byte) (x : Nat) : Option Nat → Prop where
  | active {p : Line} (h : Governs ls fnm q p) (hm : p.mode = .active) : Decides ls fnm q own x (p.kind.ttl x)
  | passiveOwn {p o : Line} (h : Governs ls fnm q p) (hm : p.mode = .passive) (ho : Governs ls fnm own o) :
      Decides ls fnm q own x (o.kind.ttl x)
  | passiveParent {p : Line} (h : Governs ls fnm q p) (hm : p.mode = .passive) (ho : Ungoverned ls fnm own) :
      Decides ls fnm q own x (p.kind.ttl x)
  | noneOwn {p o : Line} (h : Governs ls fnm q p) (hm : p.mode = .none) (ho : Governs ls fnm own o) :
      Decides ls fnm q own x (o.kind.ttl x)
  | noneAsIs {p : Line} (h : Governs ls fnm q p) (hm : p.mode = .none) (ho : Ungoverned ls fnm own) :
      Decides ls fnm q own x (some x)
  | freeOwn {o : Line} (h : Ungoverned ls fnm q) (ho : Governs ls fnm own o) : Decides ls fnm q own x (o.kind.ttl x)
  | freeAsIs (h : Ungoverned ls fnm q) (ho : Ungoverned ls fnm own) : Decides ls fnm q own x (some x)

end Verif.CacheTtl
