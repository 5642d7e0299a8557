import Verif.Model.LinkedQueue
/-! Facts about the ordered queue. -/

namespace Verif.LinkedQueue
variable {α : Type}

theorem insertAfter_perm (cmp : α → α → Int) (x : α) (l : List α) : (insertAfter cmp x l).Perm (x :: l) := by
  induction l with
  | nil => exact .refl _
  | cons y r ih =>
    rw [insertAfter]
    split
    · exact (List.Perm.cons y ih).trans (List.Perm.swap x y r)
    · exact .refl _

theorem add_perm (cmp : α → α → Int) (x : α) (l : List α) : (add cmp x l).Perm (x :: l) := by
  cases l with
  | nil => exact .refl _
  | cons y r =>
    rw [add]
    split
    · exact .refl _
    · exact (List.Perm.cons y (insertAfter_perm cmp x r)).trans (List.Perm.swap x y r)

theorem update_eq (f : α → α) (l : List α) : update f l = l.map f := by
  induction l with
  | nil => rfl
  | cons y r ih => simp [update, ih]

/-- Adding keeps the order given by a key the comparison is about. -/
theorem add_sorted (cmp : α → α → Int) (key : α → Int) {x : α} {l : List α}
    (hc : ∀ y ∈ l, (cmp x y ≤ 0 ↔ key x ≤ key y)) (h : l.Pairwise (fun a b => key a ≤ key b)) :
    (add cmp x l).Pairwise (fun a b => key a ≤ key b) := by
  have ins : ∀ l : List α, (∀ y ∈ l, (cmp x y ≤ 0 ↔ key x ≤ key y)) → l.Pairwise (fun a b => key a ≤ key b) →
      (insertAfter cmp x l).Pairwise (fun a b => key a ≤ key b) := by
    intro l
    induction l with
    | nil => intro _ _; simp [insertAfter]
    | cons y r ih =>
      intro hc h
      have hy := hc y (by simp)
      rw [List.pairwise_cons] at h
      rw [insertAfter]
      split
      · rw [List.pairwise_cons]
        refine ⟨?_, ih (fun z hz => hc z (by simp [hz])) h.2⟩
        intro z hz
        rcases List.mem_cons.1 ((insertAfter_perm cmp x r).mem_iff.1 hz) with rfl | hz
        · omega
        · exact h.1 z hz
      · rw [List.pairwise_cons, List.pairwise_cons]
        refine ⟨?_, h⟩
        intro z hz
        have hxy : key x ≤ key y := hy.1 (by omega)
        rcases List.mem_cons.1 hz with rfl | hz
        · exact hxy
        · have := h.1 z hz; omega
  cases l with
  | nil => simp [add]
  | cons y r =>
    have hy := hc y (by simp)
    have h' := h
    rw [List.pairwise_cons] at h
    rw [add]
    split
    · rw [List.pairwise_cons]
      refine ⟨?_, h'⟩
      intro z hz
      have hxy : key x ≤ key y := hy.1 (by omega)
      rcases List.mem_cons.1 hz with rfl | hz
      · exact hxy
      · have := h.1 z hz; omega
    · rw [List.pairwise_cons]
      refine ⟨?_, ins r (fun z hz => hc z (by simp [hz])) h.2⟩
      intro z hz
      rcases List.mem_cons.1 ((insertAfter_perm cmp x r).mem_iff.1 hz) with rfl | hz
      · omega
      · exact h.1 z hz

end Verif.LinkedQueue
