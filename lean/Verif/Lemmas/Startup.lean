import Verif.Spec.Startup
import Verif.Props.Config
/-! The table of options is what `decls` declares; reading a file keeps the kinds of its options. -/

namespace Verif.Startup
open Config
open StringList (Split)

/-! ### Declarations -/

/-- Declarations one after the other. -/
inductive Chain : Table → List Decl → Table → Prop
  | nil {tab : Table} : Chain tab [] tab
  | cons {tab tab1 tab2 : Table} {d : Decl} {ds : List Decl} : Declares tab d tab1 → Chain tab1 ds tab2 → Chain tab (d :: ds) tab2

theorem declared_chain {tab tab' : Table} {ds : List Decl} (h : Chain tab ds tab') : ∀ {ds0 : List Decl}, Declared ds0 tab → Declared (ds0 ++ ds) tab' := by
  induction h with
  | nil => intro ds0 h0; simpa using h0
  | @cons tab tab1 tab2 d ds h1 _ ih =>
    intro ds0 h0
    have := ih (h0.snoc h1)
    simpa using this

theorem finds_last {tab : Table} {k : List Byte} {e : Entry} (hk : Plain k) : Finds (tab ++ [(k, e)]) k tab.length e := by
  refine ⟨hk, by simp, fun j e' hj h => ?_⟩
  rw [List.getElem?_append_right (by omega), List.getElem?_eq_none (by simp; omega)] at h
  cases h

theorem set_last {tab : Table} {x y : List Byte × Entry} : (tab ++ [x]).set tab.length y = tab ++ [y] := by
  rw [List.set_append_right _ _ (Nat.le_refl _)]
  simp

theorem chain_delims {tab tab' : Table} {k d : List Byte} {st : Strategy} {d0 : List Byte} {l : List (List Byte)} {ds : List Decl} (hk : Plain k)
    (h : Chain (tab ++ [(k, .opt ⟨false, st, d, .str l⟩)]) ds tab') :
    Chain (tab ++ [(k, .opt ⟨false, st, d0, .str l⟩)]) (.delims k d :: ds) tab' := by
  have := Declares.delims (d := d) (finds_last (tab := tab) (e := .opt ⟨false, st, d0, .str l⟩) hk) rfl
  rw [set_last] at this
  exact .cons this h

theorem chain_default {tab tab' : Table} {k d s : List Byte} {st : Strategy} {l ps : List (List Byte)} {ds : List Decl} (hk : Plain k)
    (hs : Split d s ps) (h : Chain (tab ++ [(k, .opt ⟨false, st, d, .str ps⟩)]) ds tab') :
    Chain (tab ++ [(k, .opt ⟨false, st, d, .str l⟩)]) (.default k (.str (some s)) :: ds) tab' := by
  have := Declares.default (s := s) (ps := ps) (finds_last (tab := tab) (e := .opt ⟨false, st, d, .str l⟩) hk) rfl hs
  rw [set_last] at this
  exact .cons this h

theorem chain_option {tab tab' : Table} {k : List Byte} {st : Strategy} {i : Init} {v : Val} {ds : List Decl} (hs : Starts i v)
    (h : Chain (tab ++ [(k, .opt ⟨false, st, [44], v⟩)]) ds tab') : Chain tab (.option k st i :: ds) tab' :=
  .cons (.option hs) h

theorem chain_alias {tab tab' : Table} {t k : List Byte} {p d : Option (List Byte)} {ds : List Decl}
    (h : Chain (tab ++ [(k, .alias t p d)]) ds tab') : Chain tab (.alias t k p d :: ds) tab' :=
  .cons .alias h

theorem starts_path {s : List Byte} (h : (44 : Byte) ∉ s) : Starts (.path (some s)) (.path [s]) :=
  .path (.last (fun c hc => by simp only [List.mem_singleton]; exact fun e => h (e ▸ hc)))

theorem starts_str {s : List Byte} (h : (44 : Byte) ∉ s) : Starts (.str (some s)) (.str [s]) :=
  .str (.last (fun c hc => by simp only [List.mem_singleton]; exact fun e => h (e ▸ hc)))

theorem group_split : Split (str "\t ") (str "UDP 1.2.4.8,114.114.114.114 * on") [str "UDP", str "1.2.4.8,114.114.114.114", str "*", str "on"] := by
  have h1 : Split (str "\t ") (str "on") [str "on"] := .last (by decide)
  have h2 := Split.cons (d := str "\t ") (s := str "*") (x := 32) (by decide) (by decide) h1
  have h3 := Split.cons (d := str "\t ") (s := str "1.2.4.8,114.114.114.114") (x := 32) (by decide) (by decide) h2
  have h4 := Split.cons (d := str "\t ") (s := str "UDP") (x := 32) (by decide) (by decide) h3
  exact h4

theorem comma_path {dir s : List Byte} (h : (44 : Byte) ∉ dir) (hs : (44 : Byte) ∉ s) : (44 : Byte) ∉ dir ++ s := by
  simp [h, hs]

instance (k : List Byte) : Decidable (Plain k) := by unfold Plain; infer_instance

/-- Declarations that append entries, whatever was declared before. -/
def Segs (ds : List Decl) (es : Table) : Prop := ∀ tab, Chain tab ds (tab ++ es)

theorem segs_nil : Segs [] [] := fun tab => by rw [List.append_nil]; exact .nil

theorem segs_go {tab : Table} {e : List Byte × Entry} {ds : List Decl} {es : Table} (h : Segs ds es) : Chain (tab ++ [e]) ds (tab ++ e :: es) := by
  have := h (tab ++ [e])
  rwa [List.append_assoc] at this

theorem segs_option {k : List Byte} {st : Strategy} {i : Init} {v : Val} {ds : List Decl} {es : Table} (hs : Starts i v) (h : Segs ds es) :
    Segs (.option k st i :: ds) ((k, .opt ⟨false, st, [44], v⟩) :: es) := fun _ => chain_option hs (segs_go h)

theorem segs_alias {t k : List Byte} {p d : Option (List Byte)} {ds : List Decl} {es : Table} (h : Segs ds es) :
    Segs (.alias t k p d :: ds) ((k, .alias t p d) :: es) := fun _ => chain_alias (segs_go h)

theorem segs_delims {k d : List Byte} {st : Strategy} {ds : List Decl} {es : Table} (hk : Plain k) (h : Segs ds es) :
    Segs (.option k st (.str none) :: .delims k d :: ds) ((k, .opt ⟨false, st, d, .str []⟩) :: es) :=
  fun _ => chain_option .str0 (chain_delims hk (segs_go h))

theorem segs_default {k d s : List Byte} {st : Strategy} {ps : List (List Byte)} {ds : List Decl} {es : Table} (hk : Plain k) (hs : Split d s ps)
    (h : Segs ds es) : Segs (.option k st (.str none) :: .delims k d :: .default k (.str (some s)) :: ds) ((k, .opt ⟨false, st, d, .str ps⟩) :: es) :=
  fun _ => chain_option .str0 (chain_delims hk (chain_default hk hs (segs_go h)))

theorem str_comma : str "," = [44] := by decide

/-- The options are declared as documented. -/
theorem declared {dir : List Byte} (h : (44 : Byte) ∉ dir) : Declared (decls dir) (table dir) := by
  have key : Segs (decls dir) (table dir) := by
    unfold decls table switch number texts paths short
    simp only [List.map_cons, List.map_nil, str_comma]
    repeat'
      first
      | with_reducible exact segs_nil
      | with_reducible apply segs_default (by decide) group_split
      | with_reducible apply segs_default (by decide) (.last (by decide))
      | with_reducible apply segs_delims (by decide)
      | with_reducible apply segs_option .bool
      | with_reducible apply segs_option .int
      | with_reducible apply segs_option .str0
      | with_reducible apply segs_option .path0
      | with_reducible apply segs_option (starts_path (comma_path h (by decide)))
      | with_reducible apply segs_option (starts_str (by decide))
      | with_reducible apply segs_alias
  have := key []
  exact declared_chain this .nil

/-! ### The table as it is used -/

/-- The documented keys. -/
def keys : List (List Byte) := (table []).map Prod.fst

theorem keys_eq (dir : List Byte) : (table dir).map Prod.fst = keys := rfl

theorem keys_plain : ∀ k ∈ keys, Plain k := by decide +kernel

theorem keys_nodup : keys.Nodup := by decide +kernel

theorem nodup_index {l : List (List Byte)} (h : l.Nodup) {i j : Nat} {k : List Byte} (hi : l[i]? = some k) (hj : l[j]? = some k) : i = j := by
  obtain ⟨a, ha⟩ := List.getElem?_eq_some_iff.1 hi
  obtain ⟨b, hb⟩ := List.getElem?_eq_some_iff.1 hj
  exact (List.getElem_inj h).1 (ha.trans hb.symm)

/-- In a table with these keys every entry is found. -/
theorem finds_keys {tab : Table} (ht : tab.map Prod.fst = keys) {i : Nat} {k : List Byte} {e : Entry} (hi : tab[i]? = some (k, e)) :
    Finds tab k i e := by
  have hk : keys[i]? = some k := by rw [← ht, List.getElem?_map, hi]; rfl
  refine ⟨keys_plain k (List.mem_of_getElem? hk), hi, fun j e' hj h => ?_⟩
  have hk' : keys[j]? = some k := by rw [← ht, List.getElem?_map, h]; rfl
  have := nodup_index keys_nodup hk hk'
  omega

theorem reads_keys {expand : List Byte → List Byte} {tab tab' : Table} {ss : List (List Byte)} (h : Reads expand tab ss tab') :
    tab'.map Prod.fst = tab.map Prod.fst := by
  induction h with
  | nil => rfl
  | @cons tab tab1 tab2 s ss h1 _ ih =>
    rw [ih]
    cases h1 with
    | noPair => rfl
    | unknown => rfl
    | @value k v d x i o o' pre _ _ hi _ =>
      apply List.ext_getElem?
      intro j
      rw [List.getElem?_map, List.getElem?_map, List.getElem?_set]
      split
      · rename_i e
        subst e
        rw [hi]
        have := (List.getElem?_eq_some_iff.1 hi).1
        simp [this]
      · rfl

/-- Values of the same kind. -/
def SameKind : Val → Val → Prop
  | .int _, .int _ => True
  | .bool _, .bool _ => True
  | .path _, .path _ => True
  | .str _, .str _ => True
  | _, _ => False

theorem sameKind_refl (v : Val) : SameKind v v := by cases v <;> trivial

theorem sameKind_trans {u v w : Val} (h : SameKind u v) (h' : SameKind v w) : SameKind u w := by
  cases u <;> cases v <;> cases w <;> first | trivial | exact h.elim | exact h'.elim

theorem takes_same {expand : List Byte → List Byte} {o o' : Opt} {pre : Option (List Byte)} {d v : List Byte} (h : Takes expand o pre d v o') :
    SameKind o.val o'.val := by
  cases h with
  | int _ e _ => rw [e]; trivial
  | noInt _ e _ => exact sameKind_refl _
  | bool _ e _ => rw [e]; trivial
  | str e _ _ _ _ => rw [e]; trivial
  | path _ e _ _ _ => rw [e]; trivial
  | noPath _ e _ => exact sameKind_refl _

theorem takesAll_same {expand : List Byte → List Byte} {o o' : Opt} {vs : List GivenVal} (h : TakesAll expand o vs o') : SameKind o.val o'.val := by
  induction h with
  | nil => exact sameKind_refl _
  | cons h1 _ ih => exact sameKind_trans (takes_same h1) ih

/-- After reading, an option of the program has a value of its kind. -/
theorem reads_kind {expand : List Byte → List Byte} {dir : List Byte} {tab' : Table} {ss : List (List Byte)} (h : Reads expand (table dir) ss tab')
    {i : Nat} {k : String} {o : Opt} (hi : (table dir)[i]? = some (str k, .opt o)) : ∃ v, Holds tab' k v ∧ SameKind o.val v := by
  obtain ⟨vs, o', -, h2, h3⟩ := history h hi
  exact ⟨o'.val, ⟨i, o', finds_keys ((reads_keys h).trans (keys_eq dir)) h3, rfl⟩, takesAll_same h2⟩

theorem reads_bool {expand : List Byte → List Byte} {dir : List Byte} {tab' : Table} {ss : List (List Byte)} (h : Reads expand (table dir) ss tab')
    (i : Nat) {k : String} {b : Bool} (hi : (table dir)[i]? = some (switch k b)) : ∃ b, Holds tab' k (.bool b) := by
  obtain ⟨v, h1, h2⟩ := reads_kind h (k := k) hi
  cases v <;> first | exact ⟨_, h1⟩ | exact h2.elim

theorem reads_int {expand : List Byte → List Byte} {dir : List Byte} {tab' : Table} {ss : List (List Byte)} (h : Reads expand (table dir) ss tab')
    (i : Nat) {k : String} {n : Int} (hi : (table dir)[i]? = some (number k n)) : ∃ n, Holds tab' k (.int n) := by
  obtain ⟨v, h1, h2⟩ := reads_kind h (k := k) hi
  cases v <;> first | exact ⟨_, h1⟩ | exact h2.elim

theorem reads_str {expand : List Byte → List Byte} {dir : List Byte} {tab' : Table} {ss : List (List Byte)} (h : Reads expand (table dir) ss tab')
    (i : Nat) {k d : String} {st : Strategy} {l : List String} (hi : (table dir)[i]? = some (texts k st d l)) : ∃ l, Holds tab' k (.str l) := by
  obtain ⟨v, h1, h2⟩ := reads_kind h (k := k) hi
  cases v <;> first | exact ⟨_, h1⟩ | exact h2.elim

theorem reads_path {expand : List Byte → List Byte} {dir : List Byte} {tab' : Table} {ss : List (List Byte)} (h : Reads expand (table dir) ss tab')
    (i : Nat) {k : String} {st : Strategy} {l : List (List Byte)} (hi : (table dir)[i]? = some (paths k st l)) : ∃ l, Holds tab' k (.path l) := by
  obtain ⟨v, h1, h2⟩ := reads_kind h (k := k) hi
  cases v <;> first | exact ⟨_, h1⟩ | exact h2.elim

theorem holds_inj {tab : Table} {k : String} {v v' : Val} (h : Holds tab k v) (h' : Holds tab k v') : v = v' := by
  obtain ⟨i, o, h1, rfl⟩ := h
  obtain ⟨j, o', h2, rfl⟩ := h'
  obtain ⟨-, rfl, -⟩ := names_inj (Names.option h1) (Names.option h2)
  rfl

theorem sane (dir : List Byte) : Sane (table dir) := by
  have hg : Finds (table dir) (str "ServerGroup") 5 (.opt ⟨false, .discard, str "\t ", .str (["UDP", "1.2.4.8,114.114.114.114", "*", "on"].map str)⟩) :=
    finds_keys (keys_eq dir) rfl
  have ha : ∀ t p d, t = str "ServerGroup" → Entry.Sane (table dir) (.alias t p d) := by
    rintro t p d rfl
    exact ⟨_, _, hg, fun _ => ⟨_, rfl⟩⟩
  intro e he
  unfold table switch number texts paths short at he
  simp only [List.mem_cons, List.not_mem_nil, or_false] at he
  rcases he with rfl | he
  · exact ⟨(by intro h; cases h), Or.inl rfl⟩
  repeat
    rcases he with rfl | he
    · first
      | exact ha _ _ _ rfl
      | exact ⟨(by intro h; cases h), Or.inl rfl⟩
      | exact ⟨(by intro _; rfl), trivial⟩

theorem preOk (dir : List Byte) : PreOk 4 (table dir) := by
  intro k t p d h
  unfold table switch number texts paths short at h
  simp only [List.mem_cons, List.not_mem_nil, or_false, Prod.mk.injEq, reduceCtorEq, and_false, false_or, Entry.alias.injEq, Option.some.injEq] at h
  rcases h with ⟨-, -, rfl, -⟩ | ⟨-, -, rfl, -⟩ | ⟨-, -, rfl, -⟩ | ⟨-, -, rfl, -⟩ <;> decide

theorem cleanDecls {dir : List Byte} (h : (0 : Byte) ∉ dir) : ∀ d ∈ decls dir, CleanDecl d := by
  have hp : ∀ k st s, (0 : Byte) ∉ s → CleanDecl (.option k st (.path (some (dir ++ s)))) := by
    intro k st s hs
    show (0 : Byte) ∉ dir ++ s
    simp [h, hs]
  intro d hd
  unfold decls at hd
  simp only [List.mem_cons, List.not_mem_nil, or_false] at hd
  repeat
    rcases hd with rfl | hd
    · first
      | exact hp _ _ _ (by decide)
      | exact trivial
      | (show (0 : Byte) ∉ _; decide)

end Verif.Startup
