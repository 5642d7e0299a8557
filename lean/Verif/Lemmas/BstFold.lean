import Verif.Lemmas.Bst
/-! A tree built by additions only. -/

namespace Verif.Bst
variable {α : Type}

theorem add_values (cmp : α → α → Int) (s : State α) (x : α) :
    (((s.add cmp x).2.root.toList).map (·.2)).Perm (x :: s.root.toList.map (·.2)) := by
  have := (Tree.toList_insert cmp s.alloc.1 x s.root).map (·.2)
  simpa [State.add] using this

theorem foldl_add_values (cmp : α → α → Int) (xs : List α) (s : State α) :
    (((xs.foldl (fun s x => (s.add cmp x).2) s).root.toList).map (·.2)).Perm
      (xs ++ s.root.toList.map (·.2)) := by
  induction xs generalizing s with
  | nil => simp
  | cons x xs ih =>
    refine (ih _).trans ?_
    refine ((add_values cmp s x).append_left xs).trans ?_
    simp

theorem foldl_add_ordered {cmp : α → α → Int} (hc : TotalPreorder cmp) (xs : List α) (s : State α)
    (h : s.root.Ordered cmp) :
    (xs.foldl (fun s x => (s.add cmp x).2) s).root.Ordered cmp := by
  induction xs generalizing s with
  | nil => exact h
  | cons x xs ih => exact ih _ (Tree.ordered_insert hc _ _ _ h)

/-- A search in a tree built by additions succeeds exactly when some added element compares equal. -/
theorem foldl_search_isSome {cmp : α → α → Int} (hc : TotalPreorder cmp) (xs : List α) (k : α) :
    ((xs.foldl (fun s x => (s.add cmp x).2) State.init).search cmp k).isSome = true ↔
      ∃ x ∈ xs, cmp k x = 0 := by
  have hp := foldl_add_values cmp xs State.init
  simp only [State.init, Tree.toList, List.map_nil, List.append_nil] at hp
  have ho := foldl_add_ordered hc xs State.init (by simp [State.init, Tree.Ordered])
  constructor
  · intro h
    obtain ⟨e, he⟩ := Option.isSome_iff_exists.1 h
    have := Tree.search_some he
    exact ⟨e.2, hp.mem_iff.1 (List.mem_map.2 ⟨e, this.1, rfl⟩), this.2⟩
  · rintro ⟨x, hx, hx0⟩
    rw [Option.isSome_iff_ne_none]
    intro hn
    obtain ⟨e, he, rfl⟩ := List.mem_map.1 (hp.mem_iff.2 hx)
    exact Tree.search_none hc ho hn e he hx0

end Verif.Bst

namespace Verif.Bst
variable {α : Type}

theorem Tree.search_insert_some {cmp : α → α → Int} {k x : α} {a : Nat} {t : Tree α} {e : Nat × α}
    (h : t.search cmp k = some e) : (t.insert cmp a x).search cmp k = some e := by
  induction t with
  | nil => simp [Tree.search] at h
  | node l b y r ihl ihr =>
    rw [Tree.search] at h
    by_cases h0 : cmp k y = 0
    · rw [if_pos h0] at h
      rw [Tree.insert]
      split <;> rw [Tree.search, if_pos h0] <;> exact h
    · rw [if_neg h0] at h
      rw [Tree.insert]
      by_cases hlt : cmp k y < 0
      · rw [if_pos hlt] at h
        split <;> rw [Tree.search, if_neg h0, if_pos hlt]
        · exact ihl h
        · exact h
      · rw [if_neg hlt] at h
        split <;> rw [Tree.search, if_neg h0, if_neg hlt]
        · exact h
        · exact ihr h

theorem Tree.search_insert_none {cmp : α → α → Int} {k x : α} {a : Nat} {t : Tree α}
    (h : t.search cmp k = none) (hx : cmp k x ≠ 0) : (t.insert cmp a x).search cmp k = none := by
  induction t with
  | nil => simp [Tree.insert, Tree.search, hx]
  | node l b y r ihl ihr =>
    rw [Tree.search] at h
    by_cases h0 : cmp k y = 0
    · rw [if_pos h0] at h; simp at h
    · rw [if_neg h0] at h
      rw [Tree.insert]
      by_cases hlt : cmp k y < 0
      · rw [if_pos hlt] at h
        split <;> rw [Tree.search, if_neg h0, if_pos hlt]
        · exact ihl h
        · exact h
      · rw [if_neg hlt] at h
        split <;> rw [Tree.search, if_neg h0, if_neg hlt]
        · exact h
        · exact ihr h

/-- The key goes the way the inserted element goes. -/
theorem Tree.search_insert_new {cmp : α → α → Int} {k x : α} {a : Nat} {t : Tree α}
    (h : t.search cmp k = none) (hx : cmp k x = 0)
    (hs : ∀ e ∈ t.toList, cmp k e.2 ≠ 0 → (cmp k e.2 < 0 ↔ cmp x e.2 ≤ 0)) :
    (t.insert cmp a x).search cmp k = some (a, x) := by
  induction t with
  | nil => simp [Tree.insert, Tree.search, hx]
  | node l b y r ihl ihr =>
    rw [Tree.search] at h
    by_cases h0 : cmp k y = 0
    · rw [if_pos h0] at h; simp at h
    · rw [if_neg h0] at h
      rw [Tree.insert]
      have hy := hs (b, y) (by simp [Tree.toList]) h0
      dsimp only at hy
      by_cases hlt : cmp k y < 0
      · rw [if_pos hlt] at h
        rw [if_pos (hy.1 hlt), Tree.search, if_neg h0, if_pos hlt]
        exact ihl h (fun e he => hs e (by simp [Tree.toList, he]))
      · rw [if_neg hlt] at h
        rw [if_neg (fun hc => hlt (hy.2 hc)), Tree.search, if_neg h0, if_neg hlt]
        exact ihr h (fun e he => hs e (by simp [Tree.toList, he]))

theorem foldl_search_some {cmp : α → α → Int} {k : α} {e : Nat × α} (xs : List α) (s : State α)
    (h : s.search cmp k = some e) :
    (xs.foldl (fun s x => (s.add cmp x).2) s).search cmp k = some e := by
  induction xs generalizing s with
  | nil => exact h
  | cons x xs ih => exact ih _ (Tree.search_insert_some h)

theorem foldl_search_new {cmp : α → α → Int} {k : α} (xs : List α) (s : State α)
    (h : s.search cmp k = none)
    (hc : ∀ pre r post, xs = pre ++ r :: post → cmp k r = 0 →
      ∀ e ∈ s.root.toList.map (·.2) ++ pre, cmp k e ≠ 0 → (cmp k e < 0 ↔ cmp r e ≤ 0)) :
    ((xs.foldl (fun s x => (s.add cmp x).2) s).search cmp k).map (·.2) = xs.find? (fun e => cmp k e = 0) := by
  induction xs generalizing s with
  | nil => simp [h]
  | cons x xs ih =>
    have hv := add_values cmp s x
    rw [List.foldl_cons]
    by_cases hx : cmp k x = 0
    · have : (s.add cmp x).2.search cmp k = some (s.alloc.1, x) := by
        refine Tree.search_insert_new h hx ?_
        intro e he h0
        exact hc [] x xs rfl hx e.2 (by simpa using ⟨_, he⟩) h0
      rw [foldl_search_some xs _ this]
      simp [hx]
    · rw [ih (s.add cmp x).2 (Tree.search_insert_none h hx)]
      · simp [hx]
      · intro pre r post h0 h1 e he h3
        refine hc (x :: pre) r post (by simp [h0]) h1 e ?_ h3
        rcases List.mem_append.1 he with he | he
        · have := hv.mem_iff.1 he
          simp only [List.mem_cons, List.mem_append] at this ⊢
          grind
        · simp [he]

/-- A search in a tree built by additions finds the first element added that compares equal, whatever
the order is, provided that the key goes the way each equal element went. -/
theorem foldl_search_first {cmp : α → α → Int} {k : α} (xs : List α)
    (hc : ∀ pre r post, xs = pre ++ r :: post → cmp k r = 0 →
      ∀ e ∈ pre, cmp k e ≠ 0 → (cmp k e < 0 ↔ cmp r e ≤ 0)) :
    ((xs.foldl (fun s x => (s.add cmp x).2) State.init).search cmp k).map (·.2) =
      xs.find? (fun e => cmp k e = 0) :=
  foldl_search_new xs State.init rfl (by simpa [State.init, Tree.toList] using hc)

end Verif.Bst
