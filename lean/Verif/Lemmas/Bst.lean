import Verif.Model.Bst
import Verif.Spec.Bst
import Verif.Spec.Preorder

namespace Verif.TotalPreorder
variable {α : Type} {cmp : α → α → Int} (h : TotalPreorder cmp)
include h

theorem le_flip {a b : α} (hab : cmp a b ≤ 0) : 0 ≤ cmp b a := by
  have := h.flip b a; omega

theorem flip_le {a b : α} (hab : 0 ≤ cmp b a) : cmp a b ≤ 0 := by
  have := h.flip b a; omega

theorem eq_flip {a b : α} (hab : cmp a b = 0) : cmp b a = 0 := by
  have := h.flip b a; have := h.flip a b; omega

theorem refl (a : α) : cmp a a = 0 := by
  have := h.flip a a; omega

theorem lt_of_lt_of_le {a b c : α} (h1 : cmp a b < 0) (h2 : cmp b c ≤ 0) : cmp a c < 0 := by
  have h3 := h.trans a b c (by omega) h2
  rcases Int.lt_or_eq_of_le h3 with h4 | h4
  · exact h4
  · have h5 := h.eq_flip h4
    have h6 := h.trans b c a h2 (by omega)
    have := h.flip a b; omega

theorem lt_of_le_of_lt {a b c : α} (h1 : cmp a b ≤ 0) (h2 : cmp b c < 0) : cmp a c < 0 := by
  have h3 := h.trans a b c h1 (by omega)
  rcases Int.lt_or_eq_of_le h3 with h4 | h4
  · exact h4
  · have h5 := h.eq_flip h4
    have h6 := h.trans c a b (by omega) h1
    have := h.flip b c; omega

end Verif.TotalPreorder

namespace Verif.Bst
variable {α : Type}

namespace Tree

/-- The weak search-tree order that survives deletions. -/
def Ordered (cmp : α → α → Int) : Tree α → Prop
  | nil => True
  | node l _ v r =>
    (∀ e ∈ l.toList, cmp e.2 v ≤ 0) ∧ (∀ e ∈ r.toList, cmp v e.2 ≤ 0) ∧ l.Ordered cmp ∧ r.Ordered cmp

theorem toList_insert (cmp : α → α → Int) (a : Nat) (x : α) (t : Tree α) :
    (t.insert cmp a x).toList.Perm ((a, x) :: t.toList) := by
  induction t with
  | nil => simp [insert, toList]
  | node l b y r ihl ihr =>
    unfold insert
    split
    · simpa [toList] using ihl.append_right ((b, y) :: r.toList)
    · simp only [toList]
      refine List.Perm.trans (List.Perm.append_left _ (List.Perm.cons _ ihr)) ?_
      refine List.Perm.trans (List.Perm.append_left _ (List.Perm.swap _ _ _)) ?_
      exact List.perm_middle

theorem ordered_insert {cmp : α → α → Int} (hc : TotalPreorder cmp) (a : Nat) (x : α) (t : Tree α)
    (h : t.Ordered cmp) : (t.insert cmp a x).Ordered cmp := by
  induction t with
  | nil => simp [insert, Ordered, toList]
  | node l b y r ihl ihr =>
    obtain ⟨h1, h2, h3, h4⟩ := h
    unfold insert
    split
    · rename_i hxy
      refine ⟨?_, h2, ihl h3, h4⟩
      intro e he
      rw [(toList_insert cmp a x l).mem_iff] at he
      rcases List.mem_cons.1 he with rfl | he
      · exact hxy
      · exact h1 e he
    · rename_i hxy
      refine ⟨h1, ?_, h3, ihr h4⟩
      intro e he
      rw [(toList_insert cmp a x r).mem_iff] at he
      rcases List.mem_cons.1 he with rfl | he
      · exact hc.flip_le (by show 0 ≤ cmp x y; omega)
      · exact h2 e he

theorem popMin_toList (l : Tree α) (a : Nat) (v : α) (r : Tree α) :
    (popMin l a v r).1 :: (popMin l a v r).2.toList = (node l a v r).toList := by
  induction l generalizing a v r with
  | nil => simp [popMin, toList]
  | node ll b w lr ihl ihr =>
    have h := ihl b w lr
    rw [toList] at h
    simp only [popMin, toList]
    rw [← List.cons_append, h]

theorem popMin_ordered {cmp : α → α → Int} (l : Tree α) (a : Nat) (v : α)
    (r : Tree α) (h : (node l a v r).Ordered cmp) : (popMin l a v r).2.Ordered cmp := by
  induction l generalizing a v r with
  | nil => exact h.2.2.2
  | node ll b w lr ihl ihr =>
    obtain ⟨h1, h2, h3, h4⟩ := h
    refine ⟨?_, h2, ihl _ _ _ h3, h4⟩
    intro e he
    apply h1
    rw [← popMin_toList ll b w lr]
    exact List.mem_cons_of_mem _ he

theorem popMin_le {cmp : α → α → Int} (hc : TotalPreorder cmp) (l : Tree α) (a : Nat) (v : α)
    (r : Tree α) (h : (node l a v r).Ordered cmp) :
    ∀ e ∈ (popMin l a v r).2.toList, cmp (popMin l a v r).1.2 e.2 ≤ 0 := by
  induction l generalizing a v r with
  | nil => exact h.2.1
  | node ll b w lr ihl ihr =>
    obtain ⟨h1, h2, h3, h4⟩ := h
    have hm : cmp (popMin ll b w lr).1.2 v ≤ 0 := by
      apply h1
      rw [← popMin_toList ll b w lr]
      exact List.mem_cons_self
    intro e he
    simp only [popMin, toList, List.mem_append, List.mem_cons] at he ⊢
    rcases he with he | rfl | he
    · exact ihl _ _ _ h3 e he
    · exact hm
    · exact hc.trans _ _ _ hm (h2 e he)

theorem removeRoot_toList (l r : Tree α) :
    (removeRoot l r).toList = l.toList ++ r.toList := by
  unfold removeRoot
  split
  · simp [toList]
  · simp [toList]
  · rename_i ll la lv lr rl b w rr
    have h := popMin_toList rl b w rr
    simp only [toList] at h ⊢
    rw [h]

theorem removeRoot_ordered {cmp : α → α → Int} (hc : TotalPreorder cmp) (l r : Tree α) (v : α)
    (hl : ∀ e ∈ l.toList, cmp e.2 v ≤ 0) (hr : ∀ e ∈ r.toList, cmp v e.2 ≤ 0)
    (ol : l.Ordered cmp) (or : r.Ordered cmp) : (removeRoot l r).Ordered cmp := by
  unfold removeRoot
  split
  · exact or
  · exact ol
  · rename_i ll la lv lr rl b w rr
    have hmem : (popMin rl b w rr).1 ∈ (node rl b w rr).toList := by
      rw [← popMin_toList rl b w rr]; exact List.mem_cons_self
    refine ⟨?_, ?_, ol, popMin_ordered _ _ _ _ or⟩
    · intro e he
      exact hc.trans _ _ _ (hl e he) (hr _ hmem)
    · exact popMin_le hc _ _ _ _ or

theorem delete_toList (a : Nat) (t : Tree α) (hn : (t.toList.map (·.1)).Nodup) :
    (t.delete a).toList = t.toList.filter (fun e => e.1 ≠ a) := by
  induction t with
  | nil => simp [delete, toList]
  | node l b y r ihl ihr =>
    simp only [toList, List.map_append, List.map_cons] at hn
    have hnl : (l.toList.map (·.1)).Nodup := (List.nodup_append.1 hn).1
    have hnr : (r.toList.map (·.1)).Nodup := (List.nodup_cons.1 (List.nodup_append.1 hn).2.1).2
    unfold delete
    split
    · rename_i hba
      subst hba
      rw [removeRoot_toList]
      simp only [toList, List.filter_append]
      congr 1
      · symm
        rw [List.filter_eq_self]
        intro e he
        have := (List.nodup_append.1 hn).2.2 e.1 (List.mem_map_of_mem he) b (by simp)
        simpa using this
      · simp only [List.filter_cons, ne_eq, not_true_eq_false, decide_false, Bool.false_eq_true,
          if_false]
        symm
        rw [List.filter_eq_self]
        intro e he
        have := (List.nodup_cons.1 (List.nodup_append.1 hn).2.1).1
        simp only [decide_eq_true_eq]
        rintro rfl
        exact this (List.mem_map_of_mem he)
    · rename_i hba
      simp only [toList, ihl hnl, ihr hnr, List.filter_append, List.filter_cons]
      simp [hba]

theorem delete_sub (a : Nat) (t : Tree α) : (t.delete a).toList.Sublist t.toList := by
  induction t with
  | nil => simp [delete]
  | node l b y r ihl ihr =>
    unfold delete
    split
    · rw [removeRoot_toList]
      simp only [toList]
      exact List.Sublist.append_left (List.sublist_cons_self _ _) _
    · simp only [toList]
      exact List.Sublist.append ihl (List.Sublist.cons_cons _ ihr)

theorem delete_ordered {cmp : α → α → Int} (hc : TotalPreorder cmp) (a : Nat) (t : Tree α)
    (h : t.Ordered cmp) : (t.delete a).Ordered cmp := by
  induction t with
  | nil => simp [delete, Ordered]
  | node l b y r ihl ihr =>
    obtain ⟨h1, h2, h3, h4⟩ := h
    unfold delete
    split
    · exact removeRoot_ordered hc l r y h1 h2 h3 h4
    · exact ⟨fun e he => h1 e ((delete_sub a l).mem he), fun e he => h2 e ((delete_sub a r).mem he),
        ihl h3, ihr h4⟩

theorem search_some {cmp : α → α → Int} {k : α} {t : Tree α} {e : Nat × α}
    (h : t.search cmp k = some e) : e ∈ t.toList ∧ cmp k e.2 = 0 := by
  induction t with
  | nil => simp [search] at h
  | node l b y r ihl ihr =>
    unfold search at h
    simp only [toList, List.mem_append, List.mem_cons]
    split at h
    · cases h; exact ⟨Or.inr (Or.inl rfl), by assumption⟩
    · split at h
      · exact ⟨Or.inl (ihl h).1, (ihl h).2⟩
      · exact ⟨Or.inr (Or.inr (ihr h).1), (ihr h).2⟩

theorem search_none {cmp : α → α → Int} (hc : TotalPreorder cmp) {k : α} {t : Tree α}
    (ho : t.Ordered cmp) (h : t.search cmp k = none) : ∀ e ∈ t.toList, cmp k e.2 ≠ 0 := by
  induction t with
  | nil => simp [toList]
  | node l b y r ihl ihr =>
    obtain ⟨h1, h2, h3, h4⟩ := ho
    unfold search at h
    intro e he
    simp only [toList, List.mem_append, List.mem_cons] at he
    split at h
    · cases h
    · rename_i hky
      split at h
      · rename_i hlt
        rcases he with he | rfl | he
        · exact ihl h3 h e he
        · exact hky
        · have := hc.lt_of_lt_of_le hlt (h2 e he); omega
      · have hgt : cmp y k < 0 := (hc.flip y k).2 (by omega)
        rcases he with he | rfl | he
        · have := hc.lt_of_le_of_lt (h1 e he) hgt
          have := (hc.flip e.2 k).1 this; omega
        · exact hky
        · exact ihr h4 h e he

theorem preorder_perm (t : Tree α) : t.preorder.Perm t.toList := by
  induction t with
  | nil => simp [preorder, toList]
  | node l b y r ihl ihr =>
    simp only [preorder, toList]
    exact ((ihl.append ihr).cons _).trans List.perm_middle.symm

end Tree

/-- Addresses are used at most once, either by a live node or in the free list, and below
`fresh`. -/
structure Inv (s : State α) : Prop where
  nodup : (s.root.toList.map (·.1) ++ s.free).Nodup
  bound : ∀ a ∈ s.root.toList.map (·.1) ++ s.free, a < s.fresh

theorem inv_init : Inv (State.init : State α) := by
  constructor <;> simp [State.init, Tree.toList]

theorem inv_add {cmp : α → α → Int} {s : State α} (h : Inv s) (x : α) :
    Inv (s.add cmp x).2 ∧ (s.add cmp x).1 ∉ s.root.toList.map (·.1) := by
  obtain ⟨hn, hb⟩ := h
  unfold State.add State.alloc
  have hp := (Tree.toList_insert cmp s.alloc.1 x s.root).map (·.1)
  unfold State.alloc at hp
  cases hf : s.free with
  | nil =>
    simp only [hf] at hp ⊢
    rw [hf] at hn hb
    simp only [List.append_nil] at hn hb
    refine ⟨⟨?_, ?_⟩, ?_⟩
    · simp only [List.append_nil]
      rw [hp.nodup_iff]
      simp only [List.map_cons, List.nodup_cons]
      exact ⟨fun hm => Nat.lt_irrefl _ (hb _ hm), hn⟩
    · simp only [List.append_nil]
      intro a ha
      rw [hp.mem_iff] at ha
      simp only [List.map_cons, List.mem_cons] at ha
      rcases ha with rfl | ha
      · omega
      · have := hb a ha; omega
    · intro hm; exact Nat.lt_irrefl _ (hb _ hm)
  | cons f fs =>
    simp only [hf] at hp ⊢
    rw [hf] at hn hb
    have hp2 : (s.root.toList.map (·.1) ++ f :: fs).Perm
        ((s.root.insert cmp f x).toList.map (·.1) ++ fs) := by
      refine List.Perm.trans List.perm_middle ?_
      exact (hp.append_right fs).symm
    refine ⟨⟨?_, ?_⟩, ?_⟩
    · exact hp2.nodup_iff.1 hn
    · intro a ha
      exact hb a (hp2.mem_iff.2 ha)
    · intro hm
      exact (List.nodup_append.1 hn).2.2 f hm f (by simp) rfl

theorem inv_delete {s : State α} (h : Inv s) {a : Nat} (ha : a ∈ s.root.toList.map (·.1)) :
    Inv (s.delete a) := by
  obtain ⟨hn, hb⟩ := h
  have hnt := (List.nodup_append.1 hn).1
  have hd := Tree.delete_toList a s.root hnt
  have hmap : (s.root.delete a).toList.map (·.1) = (s.root.toList.map (·.1)).filter (· ≠ a) := by
    rw [hd, List.filter_map]; rfl
  have hp : (s.root.toList.map (·.1)).Perm (a :: (s.root.toList.map (·.1)).filter (· ≠ a)) := by
    have := List.perm_cons_erase ha
    rw [hnt.erase_eq_filter] at this
    refine this.trans (List.Perm.of_eq ?_)
    congr 2
    funext x
    by_cases hx : x = a <;> simp [hx]
  have hp2 : (s.root.toList.map (·.1) ++ s.free).Perm
      ((s.root.delete a).toList.map (·.1) ++ a :: s.free) := by
    rw [hmap]
    exact (hp.append_right s.free).trans List.perm_middle.symm
  exact ⟨hp2.nodup_iff.1 hn, fun x hx => hb x (hp2.mem_iff.2 hx)⟩

theorem ordered_step {cmp : α → α → Int} (hc : TotalPreorder cmp) {s s' : State α} {op : Op α}
    {e : Event α} (ho : s.root.Ordered cmp) (h : s.step cmp op = some (s', e)) :
    s'.root.Ordered cmp := by
  cases op with
  | add x =>
    simp only [State.step, Option.some.injEq, Prod.mk.injEq] at h
    rw [← h.1]
    exact Tree.ordered_insert hc _ _ _ ho
  | delete a =>
    simp only [State.step] at h
    split at h
    · simp only [Option.some.injEq, Prod.mk.injEq] at h
      rw [← h.1]
      exact Tree.delete_ordered hc _ _ ho
    · cases h
  | reset =>
    simp only [State.step, Option.some.injEq, Prod.mk.injEq] at h
    rw [← h.1]; simp [State.init, Tree.Ordered]

theorem step_live {cmp : α → α → Int} {s s' : State α} {op : Op α} {e : Event α}
    (hi : Inv s) (h : s.step cmp op = some (s', e)) (lv : List (Nat × α))
    (hl : s.root.toList.Perm lv) :
    Inv s' ∧ s'.root.toList.Perm (liveStep lv e) := by
  cases op with
  | add x =>
    simp only [State.step, Option.some.injEq, Prod.mk.injEq] at h
    rw [← h.1, ← h.2]
    refine ⟨(inv_add hi x).1, ?_⟩
    exact (Tree.toList_insert _ _ _ _).trans (hl.cons _)
  | delete a =>
    simp only [State.step] at h
    split at h
    · rename_i ha
      simp only [Option.some.injEq, Prod.mk.injEq] at h
      rw [← h.1, ← h.2]
      refine ⟨inv_delete hi ha, ?_⟩
      rw [State.delete, Tree.delete_toList a s.root (List.nodup_append.1 hi.nodup).1]
      exact hl.filter _
    · cases h
  | reset =>
    simp only [State.step, Option.some.injEq, Prod.mk.injEq] at h
    rw [← h.1, ← h.2]
    exact ⟨inv_init, by simp [State.init, Tree.toList, liveStep]⟩

theorem run_spec {cmp : α → α → Int} (ops : List (Op α)) {s s' : State α} {es : List (Event α)}
    (hi : Inv s) (h : s.run cmp ops = some (s', es)) (lv : List (Nat × α))
    (hl : s.root.toList.Perm lv) :
    Inv s' ∧ s'.root.toList.Perm (es.foldl liveStep lv) ∧
      (TotalPreorder cmp → s.root.Ordered cmp → s'.root.Ordered cmp) := by
  induction ops generalizing s es lv with
  | nil =>
    simp only [State.run, Option.some.injEq, Prod.mk.injEq] at h
    obtain ⟨rfl, rfl⟩ := h
    exact ⟨hi, hl, fun _ h => h⟩
  | cons op ops ih =>
    simp only [State.run] at h
    split at h
    · cases h
    · rename_i s1 e hs
      split at h
      · cases h
      · rename_i s2 es2 hr
        simp only [Option.some.injEq, Prod.mk.injEq] at h
        obtain ⟨rfl, rfl⟩ := h
        obtain ⟨hi1, hl1⟩ := step_live hi hs lv hl
        obtain ⟨a1, a2, a3⟩ := ih hi1 hr _ hl1
        exact ⟨a1, a2, fun hc ho => a3 hc (ordered_step hc ho hs)⟩

end Verif.Bst
