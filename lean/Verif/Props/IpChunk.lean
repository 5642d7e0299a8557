import Verif.Lemmas.IpChunk
/-! C28: the lists of blocked and substituted addresses. -/

namespace Verif.IpChunk
open IpText

/-- Adding an element to a tree. -/
abbrev grow (s : Bst.State Elem) (x : Elem) : Bst.State Elem := (s.add contain x).2

theorem find?_congr' {α : Type} {p q : α → Bool} {l : List α} (h : ∀ x ∈ l, p x = q x) : l.find? p = l.find? q := by
  induction l with
  | nil => rfl
  | cons x l ih =>
    rw [List.find?_cons, List.find?_cons, h x (by simp), ih (fun y hy => h y (by simp [hy]))]

/-- The element an entry becomes. -/
def el (e : Entry) : Elem :=
  match parseSet (e.text.takeWhile (· != 47)) ((e.text.dropWhile (· != 47)).drop 1) with
  | .ok st => ⟨st, e.type, e.data⟩
  | _ => ⟨⟨⟨[], .invalid⟩, 0⟩, e.type, e.data⟩

theorem el_is {e : Entry} (h : RangeText e.text e.range) :
    Is (el e) e.range ∧ (el e).type = e.type ∧ (el e).data = e.data ∧
    parseSet (e.text.takeWhile (· != 47)) ((e.text.dropWhile (· != 47)).drop 1) = .ok (el e).set ∧
    el e = ⟨(el e).set, e.type, e.data⟩ := by
  obtain ⟨st, h1, h2⟩ := parse_text h
  have : el e = ⟨st, e.type, e.data⟩ := by unfold el; rw [h1]
  rw [this]
  exact ⟨h2 _ _, rfl, rfl, h1, rfl⟩

def singles (es : List Entry) : List Entry := es.filter (fun e => decide e.range.Single)
def ranges (es : List Entry) : List Entry := es.filter (fun e => !decide e.range.Single)

/-- What is given to `IpChunk_Add` for an entry. -/
def Entry.arg (e : Entry) : List Byte × Nat × Option (List Byte) := (e.text, e.type, e.data)

theorem build_eq (es : List Entry) (h : ∀ e ∈ es, RangeText e.text e.range) (c : Chunk) :
    build c (es.map Entry.arg) = some
      ⟨((singles es).map el).foldl grow c.addrs,
       ((ranges es).map el).foldl grow c.cidrs⟩ := by
  induction es generalizing c with
  | nil => rfl
  | cons e es ih =>
    obtain ⟨h1, -, -, h4, h5⟩ := el_is (h e (by simp))
    have hs := h1
    rw [h5] at hs
    have hs := single_iff hs
    have ih := fun c => ih (fun e' he' => h e' (by simp [he'])) c
    simp only [List.map_cons, build, Entry.arg, add, h4]
    by_cases hsing : e.range.Single
    · rw [if_pos (hs.2 hsing)]
      dsimp only
      have := ih { c with addrs := (c.addrs.add contain ⟨(el e).set, e.type, e.data⟩).2 }
      rw [this, ← h5]
      simp [singles, ranges, hsing]
    · rw [if_neg (fun hh => hsing (hs.1 hh))]
      dsimp only
      have := ih { c with cidrs := (c.cidrs.add contain ⟨(el e).set, e.type, e.data⟩).2 }
      rw [this, ← h5]
      simp [singles, ranges, hsing]

theorem find_key {k : Elem} {a : List Byte} {rk : Range} (hk : KeyOf k a rk) (xs : List Entry)
    (h : ∀ e ∈ xs, RangeText e.text e.range) :
    (xs.map el).find? (fun e => contain k e = 0) = (xs.find? (fun e => Covers e.range a)).map el := by
  rw [List.find?_map]
  congr 1
  apply find?_congr'
  intro e he
  have := contain_key hk (el_is (h e he)).1
  simp only [Function.comp]
  rw [decide_eq_decide]
  exact this

theorem search_first {k : Elem} {a : List Byte} {rk : Range} (hk : KeyOf k a rk) (xs : List Entry)
    (h : ∀ e ∈ xs, RangeText e.text e.range)
    (hp : xs.Pairwise (fun e r => r.range.Single ∨ ¬ Inside e.range r.range)) :
    (((xs.map el).foldl grow Bst.State.init).search contain k).map (·.2) =
      (xs.find? (fun e => Covers e.range a)).map el := by
  rw [← find_key hk xs h]
  apply Bst.foldl_search_first
  intro pre r post hx hr e he hne
  have hp' : (xs.map el).Pairwise (fun e r => contain k r = 0 → contain k e ≠ 0 → (contain k e < 0 ↔ contain r e ≤ 0)) := by
    rw [List.pairwise_map]
    refine hp.imp_of_mem ?_
    intro x y hx hy hxy h0 h1
    have ix := (el_is (h x hx)).1
    have iy := (el_is (h y hy)).1
    rcases hxy with hs | hi
    · exact contain_side_single hk iy ix h0 h1 hs
    · exact contain_side hk iy ix h0 h1 hi
  rw [hx, List.pairwise_append] at hp'
  exact hp'.2.2 e he r (by simp) hr hne

theorem search_mem {k : Elem} {a : List Byte} {rk : Range} (hk : KeyOf k a rk) (xs : List Entry)
    (h : ∀ e ∈ xs, RangeText e.text e.range) {x : Nat × Elem}
    (hx : ((xs.map el).foldl grow Bst.State.init).search contain k = some x) :
    ∃ e ∈ xs, Covers e.range a ∧ x.2 = el e := by
  have h1 := Bst.Tree.search_some hx
  have hp := Bst.foldl_add_values contain (xs.map el) .init
  simp only [Bst.State.init, Bst.Tree.toList, List.map_nil, List.append_nil] at hp
  have := hp.mem_iff.1 (List.mem_map.2 ⟨x, h1.1, rfl⟩)
  obtain ⟨e, he, hee⟩ := List.mem_map.1 this
  have hc := h1.2
  rw [← hee] at hc
  exact ⟨e, he, (contain_key hk (el_is (h e he)).1).1 hc, hee.symm⟩

theorem find_cases (c : Chunk) (a : List Byte) :
    (∃ k rk, KeyOf k a rk ∧ find c a = (((c.addrs.search contain k).map (·.2)).or
        ((c.cidrs.search contain k).map (·.2))).map (fun e => (e.type, e.data))) ∨
    (find c a = none ∧ ∀ r : Range, ¬ Covers r a) := by
  by_cases h4 : a.length = 4
  · refine .inl ⟨_, _, key4 a h4, ?_⟩
    unfold find
    rw [if_pos h4]
    dsimp only
    cases c.addrs.search contain _ with
    | some e => simp
    | none => simp [Function.comp_def]
  · by_cases h16 : a.length = 16
    · refine .inl ⟨_, _, key16 a h16, ?_⟩
      unfold find
      rw [if_neg h4, if_pos h16]
      dsimp only
      cases c.addrs.search contain _ with
      | some e => simp
      | none => simp [Function.comp_def]
    · refine .inr ⟨by simp [find, h4, h16], ?_⟩
      intro r hr
      have := hr.1
      unfold Range.width at this
      split at this <;> omega

/-- C28, soundness: an address that is treated as listed lies in an entry of the list, and what is done
with it is what that entry says.  Holds for every list. -/
theorem found_listed (es : List Entry) (h : ∀ e ∈ es, RangeText e.text e.range) :
    ∃ c, build .init (es.map Entry.arg) = some c ∧
      ∀ a t d, find c a = some (t, d) → ∃ e ∈ es, Covers e.range a ∧ e.type = t ∧ e.data = d := by
  refine ⟨_, build_eq es h .init, ?_⟩
  intro a t d hf
  have hsg : ∀ e ∈ singles es, RangeText e.text e.range := fun e he => h e ((List.mem_filter.1 he).1)
  have hrg : ∀ e ∈ ranges es, RangeText e.text e.range := fun e he => h e ((List.mem_filter.1 he).1)
  rcases find_cases ⟨((singles es).map el).foldl grow Chunk.init.addrs,
       ((ranges es).map el).foldl grow Chunk.init.cidrs⟩ a with ⟨k, rk, hk, he⟩ | ⟨he, -⟩
  · rw [hf] at he
    dsimp only [Chunk.init] at he
    cases h1 : (((singles es).map el).foldl grow Bst.State.init).search contain k with
    | some x =>
      rw [h1] at he
      obtain ⟨e, hm, hc, hx⟩ := search_mem hk _ hsg h1
      simp [hx, (el_is (hsg e hm)).2.1, (el_is (hsg e hm)).2.2.1] at he
      exact ⟨e, (List.mem_filter.1 hm).1, hc, he.1.symm, he.2.symm⟩
    | none =>
      rw [h1] at he
      cases h2 : (((ranges es).map el).foldl grow Bst.State.init).search contain k with
      | none => rw [h2] at he; simp at he
      | some x =>
        rw [h2] at he
        obtain ⟨e, hm, hc, hx⟩ := search_mem hk _ hrg h2
        simp [hx, (el_is (hrg e hm)).2.1, (el_is (hrg e hm)).2.2.1] at he
        exact ⟨e, (List.mem_filter.1 hm).1, hc, he.1.symm, he.2.symm⟩
  · rw [hf] at he; simp at he

theorem single_pairwise (es : List Entry) :
    (singles es).Pairwise (fun e r => r.range.Single ∨ ¬ Inside e.range r.range) := by
  rw [List.pairwise_iff_forall_sublist]
  intro x y hs
  left
  have : y ∈ singles es := hs.subset (by simp)
  unfold singles at this
  rw [List.mem_filter] at this
  simpa using this.2

/-- C28 for individually listed addresses, in every list: the first entry for exactly this address
decides. -/
theorem single_found (es : List Entry) (h : ∀ e ∈ es, RangeText e.text e.range) :
    ∃ c, build .init (es.map Entry.arg) = some c ∧
      ∀ a e, es.find? (fun e => e.range.Single ∧ Covers e.range a) = some e → find c a = some (e.type, e.data) := by
  refine ⟨_, build_eq es h .init, ?_⟩
  intro a e he
  have hsg : ∀ e ∈ singles es, RangeText e.text e.range := fun e he => h e ((List.mem_filter.1 he).1)
  rcases find_cases ⟨((singles es).map el).foldl grow Chunk.init.addrs,
       ((ranges es).map el).foldl grow Chunk.init.cidrs⟩ a with ⟨k, rk, hk, hf⟩ | ⟨-, hf⟩
  · rw [hf]
    dsimp only [Chunk.init]
    rw [search_first hk _ hsg (single_pairwise es)]
    have e1 : (singles es).find? (fun e => Covers e.range a) = some e := by
      unfold singles
      rw [List.find?_filter, ← he]
      congr 1; funext x
      simp
    have hm := el_is (h e (List.mem_of_find?_eq_some he))
    rw [e1]
    simp [hm.2.1, hm.2.2.1]
  · have := List.find?_some he
    simp only [decide_eq_true_eq] at this
    exact absurd this.2 (hf _)

/-- C28, the full claim: an address is treated as listed exactly when some entry covers it. -/
def Exact : Prop := ∀ es : List Entry, (∀ e ∈ es, RangeText e.text e.range) →
  ∃ c, build .init (es.map Entry.arg) = some c ∧ ∀ a, (find c a).isSome ↔ ∃ e ∈ es, Covers e.range a

theorem exNet (s t u v n : String) (a b c d m : Nat) (h1 : DecNum (str s) a) (h2 : DecNum (str t) b)
    (h3 : DecNum (str u) c) (h4 : DecNum (str v) d) (h5 : DecNum (str n) m) (hle : a ≤ 255 ∧ b ≤ 255 ∧ c ≤ 255 ∧ d ≤ 255 ∧ m ≤ 32) :
    RangeText ((str s ++ 46 :: (str t ++ 46 :: (str u ++ 46 :: str v))) ++ 47 :: str n)
      ⟨false, ((a * 256 + b) * 256 + c) * 256 + d, m⟩ :=
  .v4net (.mk h1 h2 h3 h4) hle.1 hle.2.1 hle.2.2.1 hle.2.2.2.1 h5 hle.2.2.2.2

theorem num0 : DecNum (str "0") 0 := .one (by decide)
theorem num1 : DecNum (str "1") 1 := .one (by decide)
theorem num8 : DecNum (str "8") 8 := .one (by decide)
theorem num10 : DecNum (str "10") 10 := .more (s := str "1") (n := 1) (d := 0) (.one (by decide)) (by decide)
theorem num16 : DecNum (str "16") 16 := .more (s := str "1") (n := 1) (d := 6) (.one (by decide)) (by decide)

/-- `10.1.0.0/16` and `10.0.0.0/8`. -/
def inner : Entry := ⟨(str "10" ++ 46 :: (str "1" ++ 46 :: (str "0" ++ 46 :: str "0"))) ++ 47 :: str "16",
  ⟨false, ((10 * 256 + 1) * 256 + 0) * 256 + 0, 16⟩, 1, none⟩
def outer : Entry := ⟨(str "10" ++ 46 :: (str "0" ++ 46 :: (str "0" ++ 46 :: str "0"))) ++ 47 :: str "8",
  ⟨false, ((10 * 256 + 0) * 256 + 0) * 256 + 0, 8⟩, 1, none⟩

theorem inner_text : RangeText inner.text inner.range :=
  exNet "10" "1" "0" "0" "16" 10 1 0 0 16 num10 num1 num0 num0 num16 (by omega)
theorem outer_text : RangeText outer.text outer.range :=
  exNet "10" "0" "0" "0" "8" 10 0 0 0 8 num10 num0 num0 num0 num8 (by omega)

/-- C28 is false of the code: with `10.1.0.0/16` listed before `10.0.0.0/8`, the address 10.2.0.1 is
not found. -/
theorem exact_false : ¬ Exact := by
  intro h
  obtain ⟨c, hc, hf⟩ := h [inner, outer] (by
    intro e he
    simp only [List.mem_cons, List.not_mem_nil, or_false] at he
    rcases he with rfl | rfl
    · exact inner_text
    · exact outer_text)
  have h1 := (hf [10, 2, 0, 1]).2 ⟨outer, by simp, by decide +kernel⟩
  have h2 : (build .init ([inner, outer].map Entry.arg)).map (fun c => (find c [10, 2, 0, 1]).isSome) = some false := by
    decide +kernel
  rw [hc] at h2
  simp at h2
  rw [h2] at h1
  simp at h1

/-- C28 for every list in which no range is listed behind a narrower range inside it (in particular for
disjoint ranges): the first entry for exactly this address decides, otherwise the first range containing
it. -/
theorem lookup_partial (es : List Entry) (h : ∀ e ∈ es, RangeText e.text e.range)
    (hord : es.Pairwise (fun e r => e.range.Single ∨ ¬ Inside e.range r.range)) :
    ∃ c, build .init (es.map Entry.arg) = some c ∧
      ∀ a, find c a = ((es.find? (fun e => e.range.Single ∧ Covers e.range a)).or
        (es.find? (fun e => Covers e.range a))).map (fun e => (e.type, e.data)) := by
  refine ⟨_, build_eq es h .init, ?_⟩
  intro a
  have hsg : ∀ e ∈ singles es, RangeText e.text e.range := fun e he => h e ((List.mem_filter.1 he).1)
  have hrg : ∀ e ∈ ranges es, RangeText e.text e.range := fun e he => h e ((List.mem_filter.1 he).1)
  have hpr : (ranges es).Pairwise (fun e r => r.range.Single ∨ ¬ Inside e.range r.range) := by
    refine (hord.filter _).imp_of_mem ?_
    intro x y hx hy hxy
    have hx' := (List.mem_filter.1 hx).2
    simp only [Bool.not_eq_true', decide_eq_false_iff_not] at hx'
    exact .inr (hxy.resolve_left hx')
  have e1 : (singles es).find? (fun e => Covers e.range a) = es.find? (fun e => e.range.Single ∧ Covers e.range a) := by
    unfold singles
    rw [List.find?_filter]
    congr 1; funext x
    simp
  rcases find_cases ⟨((singles es).map el).foldl grow Chunk.init.addrs,
       ((ranges es).map el).foldl grow Chunk.init.cidrs⟩ a with ⟨k, rk, hk, hf⟩ | ⟨hf, hn⟩
  · rw [hf]
    dsimp only [Chunk.init]
    rw [search_first hk _ hsg (single_pairwise es), search_first hk _ hrg hpr, e1]
    cases h1 : es.find? (fun e => e.range.Single ∧ Covers e.range a) with
    | some e =>
      have hm := el_is (h e (List.mem_of_find?_eq_some h1))
      simp [hm.2.1, hm.2.2.1]
    | none =>
      have e2 : (ranges es).find? (fun e => Covers e.range a) = es.find? (fun e => Covers e.range a) := by
        unfold ranges
        rw [List.find?_filter]
        apply find?_congr'
        intro x hx
        have := List.find?_eq_none.1 h1 x hx
        simp only [decide_eq_true_eq, not_and] at this
        by_cases hs : x.range.Single
        · simp [hs, this hs]
        · simp [hs]
      rw [e2]
      cases h2 : es.find? (fun e => Covers e.range a) with
      | none => simp
      | some e =>
        have hm := el_is (h e (List.mem_of_find?_eq_some h2))
        simp [hm.2.1, hm.2.2.1]
  · rw [hf]
    have n1 : es.find? (fun e => e.range.Single ∧ Covers e.range a) = none := by
      rw [List.find?_eq_none]; intro x _; simp [hn]
    have n2 : es.find? (fun e => Covers e.range a) = none := by
      rw [List.find?_eq_none]; intro x _; simp [hn]
    rw [n1, n2]; rfl

/-- In particular an address is treated as listed exactly when some entry covers it. -/
theorem exact_partial (es : List Entry) (h : ∀ e ∈ es, RangeText e.text e.range)
    (hord : es.Pairwise (fun e r => e.range.Single ∨ ¬ Inside e.range r.range)) :
    ∃ c, build .init (es.map Entry.arg) = some c ∧ ∀ a, (find c a).isSome ↔ ∃ e ∈ es, Covers e.range a := by
  obtain ⟨c, hc, hf⟩ := lookup_partial es h hord
  refine ⟨c, hc, fun a => ?_⟩
  rw [hf, Option.isSome_map, Option.isSome_or]
  simp only [Bool.or_eq_true, List.find?_isSome, decide_eq_true_eq]
  grind

/-- The hypotheses are met by a list with nested ranges, the wider one first. -/
example : (∀ e ∈ [outer, inner], RangeText e.text e.range) ∧
    [outer, inner].Pairwise (fun e r => e.range.Single ∨ ¬ Inside e.range r.range) := by
  refine ⟨?_, by decide +kernel⟩
  intro e he
  simp only [List.mem_cons, List.not_mem_nil, or_false] at he
  rcases he with rfl | rfl
  · exact outer_text
  · exact inner_text
example : (build .init ([outer, inner].map Entry.arg)).map (fun c => [find c [10, 2, 0, 1], find c [10, 1, 0, 1], find c [11, 2, 0, 1]])
    = some [some (1, none), some (1, none), none] := by decide +kernel
example : (build .init [(str "2001:db8::/33", 2, some [1]), (str "2001:db8::5", 1, none)]).map
    (fun c => [find c [0x20, 1, 0xd, 0xb8, 0x7f, 0, 0, 0, 0, 0, 0, 0, 0, 0, 0, 5], find c [0x20, 1, 0xd, 0xb8, 0x80, 0, 0, 0, 0, 0, 0, 0, 0, 0, 0, 5],
      find c [0x20, 1, 0xd, 0xb8, 0, 0, 0, 0, 0, 0, 0, 0, 0, 0, 0, 5]])
    = some [some (2, some [1]), none, some (1, none)] := by decide +kernel

/-! ### Malformed entries -/

/-- A prefix length: a decimal number up to the width. -/
def PrefixText (w : Nat) (t : List Byte) : Prop := ∃ n, DecNum t n ∧ n ≤ w

/-- C55, the full claim: an entry `address/length` whose length is not a number up to 32 is ignored. -/
def Ignored : Prop := ∀ (s t : List Byte) (a b c d ty : Nat) (x : Option (List Byte)), V4Text s a b c d →
  a ≤ 255 → b ≤ 255 → c ≤ 255 → d ≤ 255 → ¬ PrefixText 32 t →
  (build .init [(s ++ 47 :: t, ty, x)]).map (fun ch => find ch [9, 9, 9, 9]) = some none

theorem ignored_false : ¬ Ignored := by
  intro h
  have := h (str "1" ++ 46 :: (str "1" ++ 46 :: (str "1" ++ 46 :: str "1"))) (str "x") 1 1 1 1 1 none
    (.mk num1 num1 num1 num1) (by omega) (by omega) (by omega) (by omega) (by
      rintro ⟨n, hn, -⟩
      have := atoi_num (t := str "x") hn
      obtain ⟨ds, h1, h2, h3⟩ := decNum_digits hn
      cases ds with
      | nil => exact h3 rfl
      | cons d ds =>
        have e : str "x" = [120] := by decide +kernel
        rw [e] at h1
        simp at h1
        have : decVal 120 = none := by decide
        rw [this] at h1
        simp at h1)
  revert this
  decide +kernel

/-- What remains: a text without `.` and `:` changes nothing. -/
theorem ignored_partial (c : Chunk) (s : List Byte) (ty : Nat) (x : Option (List Byte))
    (h : ∀ b ∈ s, b ≠ 46 ∧ b ≠ 58) : add c s ty x = some (false, c) := by
  have hf : (s.takeWhile (· != 47)).find? (fun c => c == 46 || c == 58) = none := by
    rw [List.find?_eq_none]
    intro b hb
    have := h b (List.takeWhile_sublist _ |>.subset hb)
    simp [this]
  unfold add parseSet parseAddr
  rw [hf]

example : add .init (str "localhost") 1 none = some (false, .init) :=
  ignored_partial _ _ _ _ (by decide +kernel)

end Verif.IpChunk
