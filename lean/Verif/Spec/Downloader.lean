import Verif.Spec.ReadLine
import Verif.Spec.HostsContainer
import Verif.Model.Downloader
/-! Fetching hosts from several sources (only the data types of the model are used). -/

namespace Verif.Downloader

/-- `url` has a scheme, `://`, further slashes and then `rest`. -/
def Names (url rest : Path) : Prop :=
  ∃ (scheme : Path) (k : Nat), url = scheme ++ ([58, 47, 47] ++ (List.replicate k 47 ++ rest)) ∧ rest.head? ≠ some 47 ∧
    ¬ [58, 47, 47] <:+: scheme ++ [58, 47]

/-- A source that is a file of this system: it starts with `file`. -/
def Near (url : Path) : Prop := ∃ r, url = str "file" ++ r

/-- The path of such a source: `/` and what follows the slashes, of at most 383 bytes, after the expansion the system does. -/
def NearPath (w : World) (url p : Path) : Prop := ∃ rest, Names url rest ∧ rest.length + 1 ≤ 383 ∧ w.expand (47 :: rest) = some p

/-- The n-th attempt to download succeeds. -/
def Succeeds (w : World) (n : Nat) (url : Path) : Prop := (w.net n url).handle = true ∧ (w.net n url).ok = true

/-- What one source gives, if files can be opened, and how many attempts to download have been made before and after.
A source elsewhere is tried until an attempt succeeds, at most `times` times (without limit if that is negative); it gives
what that attempt alone has brought. -/
inductive Fetch1 (w : World) (f : Files) (times : Int) : Nat → Path → Option (List Byte) → Nat → Prop
  | near {n : Nat} {u p : Path} : Near u → NearPath w u p → Fetch1 w f times n u (f p) n
  | nowhere {n : Nat} {u : Path} : Near u → (∀ p, ¬ NearPath w u p) → Fetch1 w f times n u none n
  | far {n k : Nat} {u : Path} : ¬ Near u → (∀ i < k, ¬ Succeeds w (n + i) u) → Succeeds w (n + k) u → (0 ≤ times → (k : Int) < times) →
      Fetch1 w f times n u (some (w.net (n + k) u).data) (n + k + 1)
  | gone {n k : Nat} {u : Path} : ¬ Near u → (∀ i < k, ¬ Succeeds w (n + i) u) → (k : Int) = times →
      Fetch1 w f times n u none (n + k)

/-- The sources one after the other. -/
inductive Fetch (w : World) (f : Files) (times : Int) : Nat → List Path → List (Option (List Byte)) → Nat → Prop
  | nil {n : Nat} : Fetch w f times n [] [] n
  | cons {n m k : Nat} {u : Path} {us : List Path} {o : Option (List Byte)} {os : List (Option (List Byte))} :
      Fetch1 w f times n u o m → Fetch w f times m us os k → Fetch w f times n (u :: us) (o :: os) k

/-- The contents one after the other, each followed by a line feed. -/
def joined (got : List (Option (List Byte))) : List Byte := got.flatMap (fun o => o.getD [] ++ [10])

/-- The lines of a text and the entries they stand for: a line that is blank apart from its comment, that has only one word
or that starts with a foreign word stands for none. -/
inductive HostsText : List (List Byte) → List Hosts.Entry → Prop
  | nil : HostsText [] []
  | blank {s : List Byte} {ss : List (List Byte)} {es : List Hosts.Entry} : ReadLine.Visible s [] → HostsText ss es → HostsText (s :: ss) es
  | short {s t : List Byte} {ss : List (List Byte)} {es : List Hosts.Entry} : ReadLine.Visible s t → Hosts.OneWord t → HostsText ss es →
      HostsText (s :: ss) es
  | foreign {s t v n : List Byte} {ss : List (List Byte)} {es : List Hosts.Entry} : ReadLine.Visible s t → Hosts.Line t v n → Hosts.Foreign v →
      HostsText ss es → HostsText (s :: ss) es
  | says {s t : List Byte} {e : Hosts.Entry} {ss : List (List Byte)} {es : List Hosts.Entry} : ReadLine.Visible s t → Hosts.LineEntry t e →
      HostsText ss es → HostsText (s :: ss) (e :: es)

/-- A content is a text with these lines. -/
def HasLines (c : List Byte) (ls : List (List Byte)) : Prop := ∃ ss last, ls = ss ++ [last] ∧ c = ReadLine.text ss last

/-- The lines of all that was fetched, in order; a source that gave nothing has no lines. -/
inductive AllLines : List (Option (List Byte)) → List (List Byte) → Prop
  | nil : AllLines [] []
  | some {c : List Byte} {os : List (Option (List Byte))} {ls ks : List (List Byte)} : HasLines c ls → AllLines os ks →
      AllLines (some c :: os) (ls ++ ks)
  | none {os : List (Option (List Byte))} {ks : List (List Byte)} : AllLines os ks → AllLines (none :: os) ks

end Verif.Downloader
