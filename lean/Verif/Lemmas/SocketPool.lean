import Verif.Spec.SocketPool
import Verif.Lemmas.Bst
/-! Lemmas on sets of sockets. -/

namespace Verif.SocketPool
variable {D : Type}

theorem compare_order : TotalPreorder (compare : Nat × Option D → Nat × Option D → Int) :=
  ⟨by intros; simp only [compare]; omega, by intros a b c; simp only [compare]; omega⟩

/-- The units in the tree. -/
def contents (p : Pool D) : List (Nat × Option D) := p.root.toList.map (·.2)

structure Good (p : Pool D) : Prop where
  inv : Bst.Inv p
  ord : p.root.Ordered compare
  nodup : ((contents p).map (·.1)).Nodup

theorem good_init : Good (Bst.State.init : Pool D) := ⟨Bst.inv_init, trivial, by simp [contents, Bst.State.init, Bst.Tree.toList]⟩

theorem add_contents (p : Pool D) (s : Nat) (d : Option D) : (contents (add p s d)).Perm ((s, d) :: contents p) := by
  have := (Bst.Tree.toList_insert compare p.alloc.1 (s, d) p.root).map (·.2)
  simpa [contents, add, Bst.State.add] using this

theorem add_good {p : Pool D} (h : Good p) {s : Nat} {d : Option D} (hs : s ∉ (contents p).map (·.1)) : Good (add p s d) := by
  refine ⟨(Bst.inv_add h.inv (s, d)).1, Bst.Tree.ordered_insert compare_order _ _ _ h.ord, ?_⟩
  have := (add_contents p s d).map (·.1)
  rw [this.nodup_iff, List.map_cons, List.nodup_cons]
  exact ⟨hs, h.nodup⟩

theorem addr_inj {p : Pool D} (h : Good p) {x y : Nat × Nat × Option D} (hx : x ∈ p.root.toList) (hy : y ∈ p.root.toList) : x.1 = y.1 ↔ x.2.1 = y.2.1 := by
  have h1 := (List.nodup_append.1 h.inv.nodup).1
  have h2 := h.nodup
  unfold contents at h2
  rw [List.map_map] at h2
  generalize p.root.toList = l at *
  induction l with
  | nil => simp at hx
  | cons z l ih =>
    simp only [List.map_cons, List.nodup_cons] at h1 h2
    rcases List.mem_cons.1 hx with rfl | hx' <;> rcases List.mem_cons.1 hy with rfl | hy'
    · simp
    · refine ⟨fun e => absurd (List.mem_map_of_mem (f := (·.1)) hy') (e ▸ h1.1), fun e => absurd (List.mem_map_of_mem (f := fun e => e.2.1) hy') ?_⟩
      rw [← e]; exact h2.1
    · refine ⟨fun e => absurd (List.mem_map_of_mem (f := (·.1)) hx') (e ▸ h1.1), fun e => absurd (List.mem_map_of_mem (f := fun e => e.2.1) hx') ?_⟩
      rw [e]; exact h2.1
    · exact ih hx' hy' h1.2 h2.2

theorem del_contents {p : Pool D} (h : Good p) (s : Nat) : contents (del p s) = (contents p).filter (fun e => e.1 ≠ s) := by
  unfold del
  cases hs : p.search compare (s, none) with
  | none =>
    have := Bst.Tree.search_none compare_order h.ord hs
    symm
    rw [List.filter_eq_self]
    intro e he
    obtain ⟨x, hx, rfl⟩ := List.mem_map.1 he
    have := this x hx
    simp only [compare] at this
    simp only [ne_eq, decide_not, Bool.not_eq_eq_eq_not, Bool.not_true, decide_eq_false_iff_not]
    omega
  | some e =>
    obtain ⟨a, u⟩ := e
    obtain ⟨h1, h2⟩ := Bst.Tree.search_some hs
    simp only [compare] at h2
    have hu : u.1 = s := by omega
    dsimp only
    unfold contents Bst.State.delete
    rw [Bst.Tree.delete_toList a p.root (List.nodup_append.1 h.inv.nodup).1, List.filter_map]
    congr 1
    apply List.filter_congr
    intro x hx
    have := addr_inj h hx h1
    dsimp only at this ⊢
    rw [hu] at this
    simp [this]

theorem del_good {p : Pool D} (h : Good p) (s : Nat) : Good (del p s) := by
  have hn : ((contents (del p s)).map (·.1)).Nodup := by
    rw [del_contents h]
    exact h.nodup.sublist (List.filter_sublist.map _)
  refine ⟨?_, ?_, hn⟩
  · unfold del
    cases hs : p.search compare (s, none) with
    | none => exact h.inv
    | some e => exact Bst.inv_delete h.inv (List.mem_map_of_mem (f := (·.1)) (Bst.Tree.search_some hs).1)
  · unfold del
    cases hs : p.search compare (s, none) with
    | none => exact h.ord
    | some e => exact Bst.Tree.delete_ordered compare_order _ _ h.ord

theorem fetch_some {p : Pool D} {set : Nat → Bool} {a s : Nat} {d : Option D} (h : fetch p set = some (a, s, d)) : (s, d) ∈ contents p ∧ set s = true := by
  unfold fetch at h
  have h1 := List.mem_of_find?_eq_some h
  have h2 := List.find?_some h
  exact ⟨List.mem_map.2 ⟨(a, s, d), (Bst.Tree.preorder_perm _).mem_iff.1 h1, rfl⟩, h2⟩

theorem fetch_none {p : Pool D} {set : Nat → Bool} (h : fetch p set = none) : ∀ e ∈ contents p, set e.1 = false := by
  unfold fetch at h
  intro e he
  obtain ⟨x, hx, rfl⟩ := List.mem_map.1 he
  have := List.find?_eq_none.1 h x ((Bst.Tree.preorder_perm _).mem_iff.2 hx)
  simpa using this

/-- What holds of a set and its members. -/
structure Holds (p : Puller D) (l : List (Nat × Option D)) : Prop where
  good : Good p.pool
  perm : (contents p.pool).Perm l
  set : ∀ s, s ∈ p.set ↔ s ∈ l.map (·.1)
  max : ∀ s ∈ l.map (·.1), ∃ m, p.max = some m ∧ s ≤ m

theorem holds_init : Holds (Puller.init : Puller D) [] :=
  ⟨good_init, by simp [contents, Puller.init, Bst.State.init, Bst.Tree.toList], by simp [Puller.init], by simp⟩

theorem holds_add {p : Puller D} {l : List (Nat × Option D)} (h : Holds p l) {s : Nat} {d : Option D} (hs : s ∉ l.map (·.1)) (hl : s < 1024) :
    ∃ p', p.add s d = some p' ∧ Holds p' ((s, d) :: l) := by
  unfold Puller.add
  rw [if_neg (by simp only [setSize]; omega)]
  refine ⟨_, rfl, ?_, (add_contents _ _ _).trans (h.perm.cons _), ?_, ?_⟩
  · exact add_good h.good (by rw [(h.perm.map (·.1)).mem_iff]; exact hs)
  · intro t
    simp [h.set]
  · intro t ht
    rw [List.map_cons, List.mem_cons] at ht
    cases hm : p.max with
    | none =>
      rcases ht with rfl | ht
      · exact ⟨_, rfl, Nat.le_refl _⟩
      · obtain ⟨m, h1, -⟩ := h.max t ht
        rw [hm] at h1; cases h1
    | some m =>
      refine ⟨_, rfl, ?_⟩
      rcases ht with rfl | ht
      · split <;> omega
      · obtain ⟨m', h1, h2⟩ := h.max t ht
        rw [hm] at h1; cases h1
        split <;> omega

theorem holds_del {p : Puller D} {l : List (Nat × Option D)} (h : Holds p l) (s : Nat) : Holds (p.del s) (l.filter (fun e => e.1 ≠ s)) := by
  refine ⟨del_good h.good s, ?_, ?_, ?_⟩
  · rw [Puller.del, del_contents h.good]
    exact h.perm.filter _
  · intro t
    simp only [Puller.del, List.mem_filter, h.set, List.mem_map, decide_eq_true_eq]
    constructor
    · rintro ⟨⟨e, h1, rfl⟩, h2⟩; exact ⟨e, ⟨h1, h2⟩, rfl⟩
    · rintro ⟨e, ⟨h1, h2⟩, rfl⟩; exact ⟨⟨e, h1, rfl⟩, h2⟩
  · intro t ht
    obtain ⟨e, h1, rfl⟩ := List.mem_map.1 ht
    exact h.max _ (List.mem_map_of_mem (List.mem_filter.1 h1).1)

theorem holds_run (ops : List (Op D)) {p : Puller D} {l : List (Nat × Option D)} (h : Holds p l) (hl : Legal l ops) :
    ∃ p', run p ops = some p' ∧ Holds p' (ops.foldl memberStep l) := by
  induction ops generalizing p l with
  | nil => exact ⟨p, rfl, h⟩
  | cons op ops ih =>
    obtain ⟨h1, h2⟩ := hl
    cases op with
    | add s d =>
      obtain ⟨p', h3, h4⟩ := holds_add (d := d) h h1.1 h1.2
      obtain ⟨p'', h5, h6⟩ := ih h4 h2
      exact ⟨p'', by rw [run, h3]; exact h5, h6⟩
    | del s => exact ih (holds_del h s) h2

end Verif.SocketPool
