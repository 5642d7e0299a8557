import Verif.Spec.HostsContainer
import Verif.Props.StringChunk

namespace Verif.Hosts
open StringChunk IpText

/-! ### Keys and positions -/

/-- The distinct names of the entries, in the order of first appearance. -/
def keysFrom (ks : List (List Byte)) : List Entry → List (List Byte)
  | [] => ks
  | e :: es => keysFrom (if e.name ∈ ks then ks else ks ++ [e.name]) es

def keys (es : List Entry) : List (List Byte) := keysFrom [] es

theorem keysFrom_append (ks : List (List Byte)) (es : List Entry) (e : Entry) :
    keysFrom ks (es ++ [e]) = if e.name ∈ keysFrom ks es then keysFrom ks es else keysFrom ks es ++ [e.name] := by
  induction es generalizing ks with
  | nil => rfl
  | cons x es ih => exact ih _

theorem keys_append (es : List Entry) (e : Entry) :
    keys (es ++ [e]) = if e.name ∈ keys es then keys es else keys es ++ [e.name] := keysFrom_append [] es e

theorem snoc_induction {α : Type} {P : List α → Prop} (h0 : P []) (h1 : ∀ l a, P l → P (l ++ [a])) (l : List α) : P l := by
  have : ∀ l : List α, P l.reverse := by
    intro l
    induction l with
    | nil => exact h0
    | cons a l ih => rw [List.reverse_cons]; exact h1 _ _ ih
  simpa using this l.reverse

theorem mem_keys (es : List Entry) (k : List Byte) : k ∈ keys es ↔ ∃ e ∈ es, e.name = k := by
  induction es using snoc_induction with
  | h0 => simp [keys, keysFrom]
  | h1 es e ih =>
    rw [keys_append]
    split
    · rename_i h
      rw [ih]
      constructor
      · rintro ⟨x, hx, rfl⟩; exact ⟨x, by simp [hx], rfl⟩
      · rintro ⟨x, hx, rfl⟩
        rcases List.mem_append.1 hx with hx | hx
        · exact ⟨x, hx, rfl⟩
        · simp at hx; subst hx; exact ih.1 h
    · simp only [List.mem_append, ih, List.mem_singleton]
      constructor
      · rintro (⟨x, hx, rfl⟩ | rfl)
        · exact ⟨x, Or.inl hx, rfl⟩
        · exact ⟨e, Or.inr rfl, rfl⟩
      · rintro ⟨x, hx | rfl, rfl⟩
        · exact Or.inl ⟨x, hx, rfl⟩
        · exact Or.inr rfl

theorem keys_nodup (es : List Entry) : (keys es).Nodup := by
  induction es using snoc_induction with
  | h0 => exact List.nodup_nil
  | h1 es e ih =>
    rw [keys_append]
    split
    · exact ih
    · rename_i h
      rw [List.nodup_append]
      refine ⟨ih, by simp, ?_⟩
      intro a ha b hb
      simp at hb; subst hb
      intro he; subst he; exact h ha

/-- The first key satisfying `p` is the name of the first entry whose name satisfies it. -/
theorem keys_find (es : List Entry) (p : List Byte → Bool) :
    (keys es).find? p = (es.find? (fun e => p e.name)).map (·.name) := by
  induction es using snoc_induction with
  | h0 => rfl
  | h1 es e ih =>
    rw [keys_append, List.find?_append]
    split
    · rename_i h
      rw [ih]
      cases hx : es.find? (fun e => p e.name) with
      | some x => rfl
      | none =>
        obtain ⟨x, hx', he⟩ := (mem_keys es e.name).1 h
        have := List.find?_eq_none.1 hx x hx'
        rw [he] at this
        simp [this]
    · rw [List.find?_append, ih]
      cases hx : es.find? (fun e => p e.name) with
      | some x => rfl
      | none => cases hp : p e.name <;> simp [hp]

/-- The positions of the entries for a name. -/
def idx (es : List Entry) (k : List Byte) : List Nat :=
  (List.range es.length).filter (fun j => decide ((es[j]?.map (·.name)) = some k))

theorem idx_append (es : List Entry) (e : Entry) (k : List Byte) :
    idx (es ++ [e]) k = idx es k ++ (if e.name = k then [es.length] else []) := by
  unfold idx
  rw [List.length_append, List.length_singleton, List.range_succ, List.filter_append]
  congr 1
  · apply List.filter_congr
    intro j hj
    rw [List.mem_range] at hj
    rw [List.getElem?_append_left hj]
  · rw [List.filter_cons]
    simp

theorem mem_idx {es : List Entry} {k : List Byte} {j : Nat} : j ∈ idx es k ↔ ∃ e, es[j]? = some e ∧ e.name = k := by
  unfold idx
  simp only [List.mem_filter, List.mem_range, decide_eq_true_iff, Option.map_eq_some_iff]
  constructor
  · rintro ⟨_, e, h1, h2⟩; exact ⟨e, h1, h2⟩
  · rintro ⟨e, h1, h2⟩; exact ⟨by obtain ⟨h, _⟩ := List.getElem?_eq_some_iff.1 h1; exact h, e, h1, h2⟩

theorem idx_lt {es : List Entry} {k : List Byte} {j : Nat} (h : j ∈ idx es k) : j < es.length := by
  obtain ⟨e, h1, _⟩ := mem_idx.1 h
  exact (List.getElem?_eq_some_iff.1 h1).1

theorem idx_length (es : List Entry) (k : List Byte) : (idx es k).length ≤ es.length := by
  have := List.length_filter_le (fun j => decide ((es[j]?.map (·.name)) = some k)) (List.range es.length)
  simpa [idx] using this

theorem idx_eq_nil {es : List Entry} {k : List Byte} : idx es k = [] ↔ k ∉ keys es := by
  rw [mem_keys]
  constructor
  · intro h ⟨e, he, hn⟩
    obtain ⟨j, hj, rfl⟩ := List.getElem_of_mem he
    have : j ∈ idx es k := mem_idx.2 ⟨_, List.getElem?_eq_some_iff.2 ⟨hj, rfl⟩, hn⟩
    rw [h] at this; simp at this
  · intro h
    apply List.eq_nil_iff_forall_not_mem.2
    intro j hj
    obtain ⟨e, h1, h2⟩ := mem_idx.1 hj
    exact h ⟨e, List.mem_of_getElem? h1, h2⟩

theorem idx_entries (es : List Entry) (k : List Byte) :
    (idx es k).filterMap (es[·]?) = es.filter (fun e => e.name = k) := by
  induction es using snoc_induction with
  | h0 => rfl
  | h1 es e ih =>
    rw [idx_append, List.filterMap_append, List.filter_append, ← ih]
    congr 1
    · have key : ∀ js : List Nat, (∀ j ∈ js, j < es.length) →
          js.filterMap ((es ++ [e])[·]?) = js.filterMap (es[·]?) := by
        intro js hjs
        induction js with
        | nil => rfl
        | cons j js ih' =>
          rw [List.filterMap_cons, List.filterMap_cons, ih' (fun i hi => hjs i (by simp [hi])),
            List.getElem?_append_left (hjs j (by simp))]
      exact key _ (fun j hj => idx_lt hj)
    · by_cases h : e.name = k
      · rw [if_pos h, List.filter_cons_of_pos (by simpa using h)]
        simp
      · rw [if_neg h, List.filter_cons_of_neg (by simpa using h)]
        simp

/-! ### The table -/

/-- The nodes met from a node on. -/
inductive Chain (tbl : List Node) : Option Nat → List Nat → Prop where
  | nil : Chain tbl none []
  | cons {i : Nat} {n : Node} {l : List Nat} (h : tbl[i]? = some n) (ht : Chain tbl n.next l) : Chain tbl (some i) (i :: l)

theorem Chain.frame {tbl tbl' : List Node} {p : Option Nat} {l : List Nat} (h : Chain tbl p l)
    (hsame : ∀ i ∈ l, tbl'[i]? = tbl[i]?) : Chain tbl' p l := by
  induction h with
  | nil => exact .nil
  | cons h _ ih => exact .cons (by rw [hsame _ (by simp)]; exact h) (ih (fun i hi => hsame i (by simp [hi])))

/-- The container holds exactly these entries. -/
structure Rel (c : Cont) (es : List Entry) : Prop where
  hash : c.mappings.hash = bkdrHash
  map : Good c.mappings ((keys es).map (fun k => ⟨k, (idx es k).head?⟩))
  len : c.table.length = es.length
  node : ∀ (j : Nat) (n : Node) (e : Entry), c.table[j]? = some n → es[j]? = some e → n.type = e.type ∧ n.data = e.data
  chain : ∀ (k : List Byte) (i : Nat) (l : List Nat), idx es k = i :: l → Chain c.table (some i) (i :: l.reverse)

theorem rel_init : Rel initCont [] :=
  ⟨rfl, good_init bkdrHash, rfl, by intro j n e h; simp [initCont] at h, by intro k i l h; simp [idx] at h⟩

theorem find_reverse_unique {α : Type} (l : List α) (p : α → Bool)
    (hu : ∀ a ∈ l, ∀ b ∈ l, p a = true → p b = true → a = b) : l.reverse.find? p = l.find? p := by
  cases h : l.find? p with
  | none =>
    rw [List.find?_eq_none] at h ⊢
    intro x hx; exact h x (by simpa using hx)
  | some a =>
    cases h' : l.reverse.find? p with
    | none =>
      rw [List.find?_eq_none] at h'
      exact absurd (List.find?_some h) (h' a (by simpa using List.mem_of_find?_eq_some h))
    | some b =>
      rw [hu a (List.mem_of_find?_eq_some h) b (by simpa using List.mem_of_find?_eq_some h')
        (List.find?_some h) (List.find?_some h')]

/-- The exact lookup of a plain key. -/
theorem rel_noWild {c : Cont} {es : List Entry} (h : Rel c es) (s : List Byte) :
    c.mappings.matchNoWild s (c.mappings.hash s) (fun _ => true) =
      if s ∈ keys es ∧ ¬ IsPattern s then some (idx es s).head? else none := by
  rw [matchNoWild_eq h.map, List.filter_map, ← List.map_reverse, List.find?_map, Option.map_map]
  rw [find_reverse_unique]
  · split
    · rename_i hs
      have : ((keys es).filter ((fun e : StringChunk.Entry Nat => !decide (IsPattern e.str)) ∘
          fun k => ⟨k, (idx es k).head?⟩)).find?
          ((fun e : StringChunk.Entry Nat => e.str == s && true) ∘ fun k => ⟨k, (idx es k).head?⟩) = some s := by
        rw [List.find?_filter]
        rw [show (fun a : List Byte => decide (((fun e : StringChunk.Entry Nat => !decide (IsPattern e.str)) ∘
          fun k => ⟨k, (idx es k).head?⟩) a = true ∧ ((fun e : StringChunk.Entry Nat => e.str == s && true) ∘ fun k => ⟨k, (idx es k).head?⟩) a = true))
          = (fun a => a == s) from by
            funext a
            by_cases ha : a = s
            · subst ha; simp [hs.2]
            · simp [ha]]
        cases hf : (keys es).find? (fun a => a == s) with
        | none => exact absurd (List.find?_eq_none.1 hf s hs.1) (by simp)
        | some a => have := List.find?_some hf; simp at this; rw [this]
      rw [this]; rfl
    · rename_i hs
      rw [Option.map_eq_none_iff, List.find?_eq_none]
      intro a ha
      simp only [List.mem_filter, Function.comp] at ha
      simp only [Function.comp, Bool.and_true, beq_iff_eq]
      intro e; subst e
      exact hs ⟨ha.1, by simpa using ha.2⟩
  · intro a _ b _ h1 h2
    simp only [Function.comp, Bool.and_true, beq_iff_eq] at h1 h2
    rw [h1, h2]

theorem rel_wild {c : Cont} {es : List Entry} (h : Rel c es) (p : List Byte → Bool) :
    (c.mappings.wild.find? (fun e => p e.str && true)).map (·.data) =
      ((es.find? (fun e => decide (IsPattern e.name) && p e.name)).map (fun e => (idx es e.name).head?)) := by
  rw [h.map.wild, List.filter_map, List.find?_map, Option.map_map, List.find?_filter]
  have : (keys es).find? (fun a => decide (IsPattern a) && p a) =
      (es.find? (fun e => decide (IsPattern e.name) && p e.name)).map (·.name) := keys_find es _
  rw [show (fun a : List Byte => decide (((fun e : StringChunk.Entry Nat => decide (IsPattern e.str)) ∘
          fun k => ⟨k, (idx es k).head?⟩) a = true ∧ ((fun e : StringChunk.Entry Nat => p e.str && true) ∘ fun k => ⟨k, (idx es k).head?⟩) a = true))
          = (fun a => decide (IsPattern a) && p a) from by funext a; simp, this, Option.map_map]
  rfl

theorem rel_findExist {c : Cont} {es : List Entry} (h : Rel c es) (s : List Byte) :
    findExist c s = (idx es s).head? := by
  unfold findExist Chunk.matchExactly
  rw [rel_noWild h]
  by_cases hp : IsPattern s
  · rw [if_neg (by simp [hp])]
    dsimp only
    rw [rel_wild h (fun k => k == s)]
    cases hf : es.find? (fun e => decide (IsPattern e.name) && (e.name == s)) with
    | none =>
      have : idx es s = [] := by
        rw [idx_eq_nil, mem_keys]
        rintro ⟨e, he, hn⟩
        have := List.find?_eq_none.1 hf e he
        simp [hn, hp] at this
      rw [this]; rfl
    | some e =>
      have := List.find?_some hf
      simp only [Bool.and_eq_true, beq_iff_eq, decide_eq_true_iff] at this
      simp only [Option.map_some, this.2]
      cases (idx es s).head? <;> rfl
  · by_cases hk : s ∈ keys es
    · rw [if_pos ⟨hk, hp⟩]
      dsimp only
      cases (idx es s).head? <;> rfl
    · rw [if_neg (by simp [hk])]
      dsimp only
      rw [rel_wild h (fun k => k == s)]
      rw [idx_eq_nil.2 hk]
      have : es.find? (fun e => decide (IsPattern e.name) && (e.name == s)) = none := by
        rw [List.find?_eq_none]
        intro e _ h'
        simp only [Bool.and_eq_true, beq_iff_eq, decide_eq_true_iff] at h'
        exact hp (h'.2 ▸ h'.1)
      rw [this]; rfl

theorem rel_addNode {c : Cont} {es : List Entry} (h : Rel c es) (e : Entry) :
    ∃ c', addNode c e.name e.type e.data = some c' ∧ Rel c' (es ++ [e]) := by
  unfold addNode
  rw [rel_findExist h]
  have hnode : ∀ (j : Nat) (n : Node) (x : Entry) (nx : Option Nat), (c.table ++ [(⟨nx, e.type, e.data⟩ : Node)])[j]? = some n →
      (es ++ [e])[j]? = some x → n.type = x.type ∧ n.data = x.data := by
    intro j n x nx h1 h2
    by_cases hj : j < es.length
    · rw [List.getElem?_append_left (by rw [h.len]; exact hj)] at h1
      rw [List.getElem?_append_left hj] at h2
      exact h.node j n x h1 h2
    · rw [List.getElem?_append_right (by rw [h.len]; omega), h.len] at h1
      rw [List.getElem?_append_right (by omega)] at h2
      have hj0 : j - es.length = 0 := by
        have := (List.getElem?_eq_some_iff.1 h1).1; simp at this; omega
      rw [hj0] at h1 h2
      simp at h1 h2
      subst h1; subst h2; exact ⟨rfl, rfl⟩
  cases hi : idx es e.name with
  | nil =>
    refine ⟨_, rfl, ⟨?_, ?_, by simp [h.len], fun j n x => hnode j n x none, ?_⟩⟩
    · show (c.mappings.add _ _).hash = _
      rw [add_hash]; exact h.hash
    · have hk := idx_eq_nil.1 hi
      have := good_add h.map e.name (some c.table.length)
      rw [keys_append, if_neg hk, List.map_append]
      have e1 : (keys es).map (fun k => (⟨k, (idx (es ++ [e]) k).head?⟩ : StringChunk.Entry Nat)) =
          (keys es).map (fun k => ⟨k, (idx es k).head?⟩) := by
        apply List.map_congr_left
        intro k hk'
        rw [idx_append, if_neg (by intro he; subst he; exact hk hk'), List.append_nil]
      rw [e1]
      have e2 : ([e.name].map (fun k => (⟨k, (idx (es ++ [e]) k).head?⟩ : StringChunk.Entry Nat))) = [⟨e.name, some c.table.length⟩] := by
        simp only [List.map_cons, List.map_nil, idx_append, hi, if_pos, List.nil_append, List.head?_cons, h.len]
      rw [e2]; exact this
    · intro k i l hkl
      rw [idx_append] at hkl
      by_cases he : e.name = k
      · subst he
        rw [hi, if_pos rfl] at hkl
        simp at hkl
        obtain ⟨rfl, rfl⟩ := hkl
        exact .cons (n := ⟨none, e.type, e.data⟩) (by
          show (c.table ++ [_])[es.length]? = _
          rw [← h.len]; simp) .nil
      · rw [if_neg he, List.append_nil] at hkl
        refine (h.chain k i l hkl).frame ?_
        intro j hj
        have : j ∈ idx es k := by rw [hkl]; simpa using hj
        exact List.getElem?_append_left (by rw [h.len]; exact idx_lt this)
  | cons i l =>
    have hil : i < es.length := idx_lt (es := es) (k := e.name) (by rw [hi]; simp)
    have hit : i < c.table.length := by rw [h.len]; exact hil
    obtain ⟨n, hn⟩ : ∃ n, c.table[i]? = some n := ⟨_, List.getElem?_eq_some_iff.2 ⟨hit, rfl⟩⟩
    simp only [List.head?_cons, hn]
    refine ⟨_, rfl, ⟨h.hash, ?_, by simp [h.len], ?_, ?_⟩⟩
    · have hk : e.name ∈ keys es := by
        apply Classical.byContradiction; intro hk
        rw [← idx_eq_nil, hi] at hk; simp at hk
      rw [keys_append, if_pos hk]
      have e1 : (keys es).map (fun k => (⟨k, (idx (es ++ [e]) k).head?⟩ : StringChunk.Entry Nat)) =
          (keys es).map (fun k => ⟨k, (idx es k).head?⟩) := by
        apply List.map_congr_left
        intro k hk'
        rw [idx_append]
        cases hx : idx es k with
        | nil => rw [idx_eq_nil] at hx; exact absurd hk' hx
        | cons a b => rfl
      rw [e1]; exact h.map
    · intro j m x h1 h2
      rw [List.getElem?_set] at h1
      split at h1
      · rename_i hji; subst hji
        split at h1
        · simp at h1; subst h1
          exact hnode i n x n.next (by rw [List.getElem?_append_left hit]; exact hn) h2
        · simp at h1
      · exact hnode j m x _ h1 h2
    · intro k i' l' hkl
      rw [idx_append] at hkl
      by_cases he : e.name = k
      · subst he
        rw [hi, if_pos rfl] at hkl
        simp at hkl
        obtain ⟨rfl, rfl⟩ := hkl
        have hc := h.chain e.name i l hi
        cases hc with
        | cons hn' ht =>
          rw [hn] at hn'; cases hn'
          have hnotin : ∀ j ∈ l, i ≠ j := by
            have hnd : (idx es e.name).Nodup := List.nodup_range.sublist List.filter_sublist
            rw [hi, List.nodup_cons] at hnd
            intro j hj he; subst he; exact hnd.1 hj
          rw [List.reverse_append, show [es.length].reverse ++ l.reverse = c.table.length :: l.reverse by simp [h.len]]
          refine .cons (n := { n with next := some c.table.length }) ?_ (.cons (n := ⟨n.next, e.type, e.data⟩) ?_ (ht.frame ?_))
          · rw [List.getElem?_set]; simp; omega
          · rw [List.getElem?_set, if_neg (by omega)]; simp [h.len]
          · intro j hj
            have hj' : j ∈ l := by simpa using hj
            rw [List.getElem?_set, if_neg (hnotin j hj'), List.getElem?_append_left]
            rw [h.len]; exact idx_lt (es := es) (k := e.name) (by rw [hi]; simp [hj'])
      · rw [if_neg he, List.append_nil] at hkl
        refine (h.chain k i' l' hkl).frame ?_
        intro j hj
        have hj' : j ∈ idx es k := by rw [hkl]; simpa using hj
        have hij : i ≠ j := by
          intro hij; subst hij
          obtain ⟨x, h1, h2⟩ := mem_idx.1 hj'
          obtain ⟨y, h3, h4⟩ := mem_idx.1 (show i ∈ idx es e.name by rw [hi]; simp)
          rw [h1] at h3; cases h3; exact he (h4.symm.trans h2)
        rw [List.getElem?_set, if_neg hij, List.getElem?_append_left (by rw [h.len]; exact idx_lt hj')]

/-! ### Finding -/

theorem findLoop_chain {tbl : List Node} {ty : HType} (hty : ty ≠ .unknown) {p : Option Nat} {js : List Nat}
    (h : Chain tbl p js) (fuel : Nat) (hf : js.length ≤ fuel) (v4 : Option Node) :
    findLoop tbl ty fuel p v4 =
      match (js.filterMap (tbl[·]?)).find? (fun n => n.type = ty) with
      | some n => some (ty, n)
      | none => (v4.or (if ty = .aaaa then (js.filterMap (tbl[·]?)).find? (fun n => n.type = .a) else none)).map (fun n => (ty, n)) := by
  induction h generalizing fuel v4 with
  | nil => cases fuel <;> simp [findLoop]
  | @cons i n l hn ht ih =>
    cases fuel with
    | zero => simp at hf
    | succ fuel =>
      unfold findLoop
      rw [List.filterMap_cons_some hn]
      simp only [hn]
      by_cases hnt : n.type = ty
      · rw [if_pos (Or.inr hnt), List.find?_cons_of_pos (by simpa using hnt), hnt]
      · rw [if_neg (by rintro (h | h); exact hty h; exact hnt h), List.find?_cons_of_neg (by simpa using hnt), ih fuel (by simpa using hf)]
        cases hx : (l.filterMap (tbl[·]?)).find? (fun n => n.type = ty) with
        | some m => rfl
        | none =>
          dsimp only
          congr 1
          by_cases h6 : ty = .aaaa
          · rw [if_pos h6]
            by_cases ha : n.type = .a
            · cases v4 with
              | none => simp [h6, ha]
              | some v => simp
            · rw [if_neg (by simp [ha]), if_pos h6, List.find?_cons_of_neg (by simpa using ha)]
          · rw [if_neg (by simp [h6]), if_neg h6, if_neg h6]

theorem rel_match {c : Cont} {es : List Entry} (h : Rel c es) (fnm : List Byte → List Byte → Bool) (name : List Byte) :
    (∃ i k l, c.mappings.match_ fnm name (c.mappings.hash name) (fun _ => true) = some (some i) ∧
      idx es k = i :: l ∧ entriesFor fnm es name = es.filter (fun e => e.name = k)) ∨
    (c.mappings.match_ fnm name (c.mappings.hash name) (fun _ => true) = none ∧ entriesFor fnm es name = []) := by
  have hhead : ∀ k, k ∈ keys es → ∃ i l, idx es k = i :: l := by
    intro k hk
    cases hx : idx es k with
    | nil => exact absurd hk (idx_eq_nil.1 hx)
    | cons i l => exact ⟨i, l, rfl⟩
  unfold Chunk.match_ entriesFor
  rw [rel_noWild h]
  by_cases hp : name ∈ keys es ∧ ¬ IsPattern name
  · rw [if_pos hp]
    obtain ⟨i, l, hi⟩ := hhead name hp.1
    left
    refine ⟨i, name, l, by rw [hi]; rfl, hi, ?_⟩
    obtain ⟨e, he, hn⟩ := (mem_keys es name).1 hp.1
    rw [if_pos ⟨e, he, hn, by rw [hn]; exact hp.2⟩]
  · rw [if_neg hp]
    dsimp only
    rw [if_neg (by
      rintro ⟨e, he, hn, hq⟩
      exact hp ⟨(mem_keys es name).2 ⟨e, he, hn⟩, by rw [← hn]; exact hq⟩)]
    unfold Chunk.matchWild
    rw [rel_wild h (fun k => fnm k name)]
    cases hf : es.find? (fun e => decide (IsPattern e.name) && fnm e.name name) with
    | none => right; exact ⟨rfl, rfl⟩
    | some e =>
      left
      obtain ⟨i, l, hi⟩ := hhead e.name ((mem_keys es e.name).2 ⟨e, List.mem_of_find?_eq_some hf, rfl⟩)
      exact ⟨i, e.name, l, by simp [hi], hi, rfl⟩

/-- The entries of a name in the order in which they are tried. -/
def tried : List Entry → List Entry
  | [] => []
  | e :: l => e :: l.reverse

theorem find_map_rel {c : Cont} {es : List Entry} (h : Rel c es) (js : List Nat) (hjs : ∀ j ∈ js, j < es.length) (ty : HType) :
    ((js.filterMap (c.table[·]?)).find? (fun n => n.type = ty)).map (fun n => (n.type, n.data)) =
    ((js.filterMap (es[·]?)).find? (fun e => e.type = ty)).map (fun e => (e.type, e.data)) := by
  induction js with
  | nil => rfl
  | cons j js ih =>
    have hj := hjs j (by simp)
    obtain ⟨e, he⟩ : ∃ e, es[j]? = some e := ⟨_, List.getElem?_eq_some_iff.2 ⟨hj, rfl⟩⟩
    obtain ⟨n, hn⟩ : ∃ n, c.table[j]? = some n := ⟨_, List.getElem?_eq_some_iff.2 ⟨by rw [h.len]; exact hj, rfl⟩⟩
    obtain ⟨h1, h2⟩ := h.node j n e hn he
    rw [List.filterMap_cons_some hn, List.filterMap_cons_some he]
    by_cases ht : e.type = ty
    · rw [List.find?_cons_of_pos (by simpa [h1] using ht), List.find?_cons_of_pos (by simpa using ht)]
      simp [h1, h2]
    · rw [List.find?_cons_of_neg (by simpa [h1] using ht), List.find?_cons_of_neg (by simpa using ht)]
      exact ih (fun i hi => hjs i (by simp [hi]))

/-- `find` in terms of the entries. -/
theorem rel_find {c : Cont} {es : List Entry} (h : Rel c es) (fnm : List Byte → List Byte → Bool) (name : List Byte)
    (ty : HType) (hty : ty ≠ .unknown) :
    (find c fnm name ty).map (fun r => (r.1, r.2.type, r.2.data)) =
      let l := tried (entriesFor fnm es name)
      ((l.find? (fun e => e.type = ty)).or (if ty = .aaaa then l.find? (fun e => e.type = .a) else none)).map
        (fun e => (ty, e.type, e.data)) := by
  unfold find
  rcases rel_match h fnm name with ⟨i, k, l, hm, hi, he⟩ | ⟨hm, he⟩
  · rw [hm, he]
    have hc := h.chain k i l hi
    have hlen : (i :: l.reverse).length ≤ c.table.length := by
      have := idx_length es k; rw [hi] at this; rw [h.len]; simpa using this
    dsimp only
    rw [findLoop_chain hty hc _ hlen none]
    have htr : tried (es.filter (fun e => e.name = k)) = (i :: l.reverse).filterMap (es[·]?) := by
      rw [← idx_entries, hi]
      have : i < es.length := idx_lt (es := es) (k := k) (by rw [hi]; simp)
      rw [List.filterMap_cons_some (List.getElem?_eq_some_iff.2 ⟨this, rfl⟩),
        List.filterMap_cons_some (List.getElem?_eq_some_iff.2 ⟨this, rfl⟩), List.filterMap_reverse]
      rfl
    rw [htr]
    have hjs : ∀ j ∈ i :: l.reverse, j < es.length := by
      intro j hj
      exact idx_lt (es := es) (k := k) (by rw [hi]; simpa using hj)
    have f1 := find_map_rel h _ hjs ty
    have f2 := find_map_rel h _ hjs .a
    generalize (i :: l.reverse).filterMap (c.table[·]?) = ns at f1 f2
    generalize (i :: l.reverse).filterMap (es[·]?) = xs at f1 f2
    cases h1 : ns.find? (fun n => n.type = ty) with
    | some n =>
      rw [h1] at f1
      cases h2 : xs.find? (fun e => e.type = ty) with
      | none => rw [h2] at f1; simp at f1
      | some e => rw [h2] at f1; simp at f1; simp [f1]
    | none =>
      rw [h1] at f1
      cases h2 : xs.find? (fun e => e.type = ty) with
      | some e => rw [h2] at f1; simp at f1
      | none =>
        by_cases h6 : ty = .aaaa
        · simp only [h6, if_true, Option.none_or, Option.map_map]
          have := congrArg (Option.map (fun p : HType × Data => (HType.aaaa, p.1, p.2))) f2
          simpa [Option.map_map, Function.comp_def] using this
        · simp [h6]
  · rw [hm, he]; simp [tried]

end Verif.Hosts
