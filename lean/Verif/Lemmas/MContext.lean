import Verif.Spec.MContext
import Verif.Lemmas.Bst

namespace Verif.MContext
open Verif.Bst

variable {C : Type}

theorem asInt32_eq_zero {u : UInt32} (h : asInt32 u = 0) : u = 0 := by
  unfold asInt32 at h
  apply UInt32.toNat_inj.1
  have := u.toNat_lt
  split at h <;> simp <;> omega

theorem asInt32_sub {a b : UInt32} (h : ((a.toNat : Int) - b.toNat).natAbs < 2 ^ 31) :
    asInt32 (a - b) = (a.toNat : Int) - b.toNat := by
  unfold asInt32
  rw [UInt32.toNat_sub]
  have := a.toNat_lt
  have := b.toNat_lt
  split <;> omega

theorem compare_eq_zero {p q : Pending C} (h : compare p q = 0) : p.id = q.id ∧ p.hash = q.hash := by
  unfold compare at h
  split at h
  · rename_i hne
    exfalso; apply hne
    apply UInt16.toNat_inj.1; omega
  · rename_i hid
    refine ⟨by simpa using hid, ?_⟩
    have := asInt32_eq_zero h
    have h2 : p.hash - q.hash + q.hash = 0 + q.hash := by rw [this]
    simpa using h2

theorem compare_zero_of {p q : Pending C} (h1 : p.id = q.id) (h2 : p.hash = q.hash) :
    compare p q = 0 := by
  unfold compare
  simp [h1, h2, asInt32]

theorem inj_of_nodup {β : Type} {l : List (Nat × β)} (hn : (l.map (·.1)).Nodup) {x y : Nat × β}
    (hx : x ∈ l) (hy : y ∈ l) (h : x.1 = y.1) : x = y := by
  induction l with
  | nil => simp at hx
  | cons z zs ih =>
    simp only [List.map_cons, List.nodup_cons] at hn
    rcases List.mem_cons.1 hx with rfl | hx' <;> rcases List.mem_cons.1 hy with rfl | hy'
    · rfl
    · exact absurd (h ▸ List.mem_map_of_mem (f := (·.1)) hy') hn.1
    · exact absurd (h ▸ List.mem_map_of_mem (f := (·.1)) hx') hn.1
    · exact ih hn.2 hx' hy'

theorem delete_contents {c : Table C} (hi : Inv c) {a : Nat} {p : Pending C}
    (h : (a, p) ∈ c.root.toList) : (waiting c).Perm (p :: waiting (c.delete a)) := by
  have hn := (List.nodup_append.1 hi.nodup).1
  unfold waiting State.delete
  rw [Tree.delete_toList a c.root hn]
  rw [← List.map_cons (f := fun e : Nat × Pending C => e.2) (a := (a, p))]
  apply List.Perm.map
  clear hi
  generalize c.root.toList = l at *
  induction l with
  | nil => simp at h
  | cons x xs ih =>
    simp only [List.map_cons, List.nodup_cons] at hn
    rcases List.mem_cons.1 h with rfl | h
    · simp only [List.filter_cons, ne_eq, not_true_eq_false, decide_false, Bool.false_eq_true,
        if_false]
      refine List.Perm.cons _ (List.Perm.of_eq ?_)
      symm; rw [List.filter_eq_self]
      intro e he
      simp only [decide_eq_true_eq]
      intro hea
      exact hn.1 (hea ▸ List.mem_map_of_mem (f := (·.1)) he)
    · have hx : x.1 ≠ a := by
        rintro rfl
        exact hn.1 (List.mem_map_of_mem (f := (·.1)) h)
      simp only [List.filter_cons, ne_eq, hx, not_false_eq_true, decide_true, if_true]
      exact ((ih h hn.2).cons x).trans (List.Perm.swap _ _ _)

/-- Deleting a list of live nodes. -/
theorem foldl_delete (old : List (Nat × Pending C)) :
    ∀ {c : Table C}, Inv c → (∀ e ∈ old, e ∈ c.root.toList) → (old.map (·.1)).Nodup →
    Inv (old.foldl (fun s e => s.delete e.1) c) ∧
    (old.foldl (fun s e => s.delete e.1) c).root.toList =
      c.root.toList.filter (fun e => e.1 ∉ old.map (·.1)) := by
  induction old with
  | nil =>
    intro c hi _ _
    refine ⟨hi, ?_⟩
    simp only [List.foldl_nil, List.map_nil, List.not_mem_nil, not_false_eq_true, decide_true]
    exact (List.filter_eq_self.2 (fun _ _ => rfl)).symm
  | cons e es ih =>
    intro c hi hm hn
    simp only [List.map_cons, List.nodup_cons] at hn
    have he : e ∈ c.root.toList := hm e List.mem_cons_self
    have hnd := (List.nodup_append.1 hi.nodup).1
    have hi' : Inv (c.delete e.1) := inv_delete hi (List.mem_map_of_mem he)
    have hdl : (c.delete e.1).root.toList = c.root.toList.filter (fun x => x.1 ≠ e.1) :=
      Tree.delete_toList e.1 c.root hnd
    have hm' : ∀ x ∈ es, x ∈ (c.delete e.1).root.toList := by
      intro x hx
      rw [hdl, List.mem_filter]
      refine ⟨hm x (List.mem_cons_of_mem _ hx), ?_⟩
      simp only [decide_eq_true_eq]
      intro heq
      exact hn.1 (heq ▸ List.mem_map_of_mem hx)
    obtain ⟨h1, h2⟩ := ih hi' hm' hn.2
    refine ⟨h1, ?_⟩
    rw [List.foldl_cons, h2, hdl, List.filter_filter]
    congr 1
    funext x
    simp only [List.map_cons, List.mem_cons, not_or]
    by_cases h1 : x.1 = e.1 <;> by_cases h2 : x.1 ∈ es.map (·.1) <;> simp [h1, h2]

theorem sweep_spec {c : Table C} (hi : Inv c) (now : Int) :
    Inv (sweep c now).2 ∧
    (sweep c now).2.root.toList = c.root.toList.filter (fun e => !expired now e.2) ∧
    (sweep c now).1.Perm ((waiting c).filter (fun p => expired now p)) := by
  have hnd := (List.nodup_append.1 hi.nodup).1
  have hpre := Tree.preorder_perm c.root
  have hold : (c.root.preorder.filter (fun e => expired now e.2)).Perm
      (c.root.toList.filter (fun e => expired now e.2)) := hpre.filter _
  have hmem : ∀ e ∈ c.root.preorder.filter (fun e => expired now e.2), e ∈ c.root.toList := by
    intro e he
    exact hpre.mem_iff.1 (List.mem_filter.1 he).1
  have hndo : ((c.root.preorder.filter (fun e => expired now e.2)).map (·.1)).Nodup := by
    refine List.Sublist.nodup (List.Sublist.map _ List.filter_sublist) ?_
    exact ((hpre.map (·.1)).nodup_iff).2 hnd
  obtain ⟨h1, h2⟩ := foldl_delete _ hi hmem hndo
  refine ⟨h1, ?_, ?_⟩
  · rw [sweep, h2]
    apply List.filter_congr
    intro e he
    have : e.1 ∈ (c.root.preorder.filter (fun e => expired now e.2)).map (·.1) ↔
        expired now e.2 = true := by
      constructor
      · intro hm
        obtain ⟨e', he', heq⟩ := List.mem_map.1 hm
        have h3 := List.mem_filter.1 he'
        have h4 := hpre.mem_iff.1 h3.1
        have : e' = e := by
          exact inj_of_nodup hnd h4 he heq
        rw [← this]; exact h3.2
      · intro hx
        exact List.mem_map_of_mem (List.mem_filter.2 ⟨hpre.mem_iff.2 he, hx⟩)
    by_cases hx : expired now e.2 = true <;> simp [this, hx]
  · unfold sweep waiting
    rw [List.filter_map]
    exact hold.map _

theorem add_contents (c : Table C) (now : Int) (p : Pending C) :
    (waiting (add c now p)).Perm ({ p with timestamp := now } :: waiting c) := by
  unfold waiting add State.add
  exact (Tree.toList_insert _ _ _ _).map _

theorem step_response_none {c : Table C} {r : Pending C} (h : State.search compare c r = none) :
    step c (.response r) = (c, .unmatched) := by
  simp [step, genAnswerHeaderAndRemove, h]

theorem step_response_some {c : Table C} {r : Pending C} {a : Nat} {p : Pending C}
    (h : State.search compare c r = some (a, p)) :
    step c (.response r) = (c.delete a, .delivered p) := by
  simp [step, genAnswerHeaderAndRemove, h]

theorem inv_step {c : Table C} (hi : Inv c) (op : Op C) : Inv (step c op).1 := by
  cases op with
  | query now p => exact (inv_add hi _).1
  | response r =>
    cases hs : State.search compare c r with
    | none => rw [step_response_none hs]; exact hi
    | some ap =>
      rw [step_response_some (a := ap.1) (p := ap.2) hs]
      exact inv_delete hi (List.mem_map_of_mem (f := (·.1)) (Tree.search_some hs).1)
  | sweep now => exact (sweep_spec hi now).1

theorem inv_run {c : Table C} (hi : Inv c) (ops : List (Op C)) : Inv (run c ops).1 := by
  induction ops generalizing c with
  | nil => exact hi
  | cons op ops ih => exact ih (inv_step hi op)

/-- Comparison by ID, then by hash as a number. -/
def natCompare (p q : Pending C) : Int :=
  if p.id ≠ q.id then (p.id.toNat : Int) - q.id.toNat else (p.hash.toNat : Int) - q.hash.toNat

theorem natCompare_totalPreorder : TotalPreorder (natCompare (C := C)) := by
  constructor
  · intro a b
    unfold natCompare
    by_cases h : a.id = b.id
    · simp [h]; omega
    · have : b.id ≠ a.id := fun h' => h h'.symm
      simp only [ne_eq, h, not_false_eq_true, if_true, this]; omega
  · intro a b c
    unfold natCompare
    by_cases h1 : a.id = b.id <;> by_cases h2 : b.id = c.id
    · simp only [h1, h2, ne_eq, not_true_eq_false, if_false]; omega
    · simp only [h1, h2, ne_eq, not_true_eq_false, if_false, not_false_eq_true, if_true]; omega
    · have : a.id ≠ c.id := h2 ▸ h1
      simp only [this, h2, ne_eq, not_true_eq_false, if_false, not_false_eq_true, if_true]
      omega
    · have e1 : a.id.toNat ≠ b.id.toNat := fun h => h1 (UInt16.toNat_inj.1 h)
      have e2 : b.id.toNat ≠ c.id.toNat := fun h => h2 (UInt16.toNat_inj.1 h)
      simp only [h1, h2, ne_eq, not_false_eq_true, if_true]
      intro h3 h4
      by_cases h5 : a.id = c.id
      · have : a.id.toNat = c.id.toNat := by rw [h5]
        omega
      · simp only [h5, not_false_eq_true, if_true]; omega

theorem compare_of_close {p q : Pending C} (h : Close p q) : compare p q = natCompare p q := by
  unfold compare natCompare
  split
  · rfl
  · rename_i hid
    exact asInt32_sub (h (by simpa using hid))

theorem insert_congr {c1 c2 : Pending C → Pending C → Int} (a : Nat) (x : Pending C) (t : Tree (Pending C))
    (h : ∀ e ∈ t.toList, c1 x e.2 = c2 x e.2) : t.insert c1 a x = t.insert c2 a x := by
  induction t with
  | nil => rfl
  | node l b y r ihl ihr =>
    simp only [Tree.toList, List.mem_append, List.mem_cons] at h
    have hy : c1 x y = c2 x y := h (b, y) (Or.inr (Or.inl rfl))
    simp only [Tree.insert, hy, ihl (fun e he => h e (Or.inl he)),
      ihr (fun e he => h e (Or.inr (Or.inr he)))]

theorem search_congr {c1 c2 : Pending C → Pending C → Int} (k : Pending C) (t : Tree (Pending C))
    (h : ∀ e ∈ t.toList, c1 k e.2 = c2 k e.2) : t.search c1 k = t.search c2 k := by
  induction t with
  | nil => rfl
  | node l b y r ihl ihr =>
    simp only [Tree.toList, List.mem_append, List.mem_cons] at h
    have hy : c1 k y = c2 k y := h (b, y) (Or.inr (Or.inl rfl))
    simp only [Tree.search, hy, ihl (fun e he => h e (Or.inl he)),
      ihr (fun e he => h e (Or.inr (Or.inr he)))]

theorem foldl_delete_ordered (old : List (Nat × Pending C)) : ∀ {c : Table C},
    c.root.Ordered natCompare →
    (old.foldl (fun s e => s.delete e.1) c).root.Ordered natCompare := by
  induction old with
  | nil => exact fun h => h
  | cons e es ih =>
    intro c h
    exact ih (Tree.delete_ordered natCompare_totalPreorder _ _ h)

/-- All pending entries come from the initial table or from a query of the history. -/
theorem mem_contents_step {c : Table C} (hi : Inv c) (op : Op C) {q : Pending C}
    (h : q ∈ waiting (step c op).1) : q ∈ waiting c ∨ q ∈ queriesOf [op] := by
  cases op with
  | query now p =>
    have := (add_contents c now p).mem_iff.1 h
    rcases List.mem_cons.1 this with rfl | h
    · right; simp [queriesOf]
    · left; exact h
  | response r =>
    cases hs : State.search compare c r with
    | none => rw [step_response_none hs] at h; exact Or.inl h
    | some ap =>
      rw [step_response_some (a := ap.1) (p := ap.2) hs] at h
      left
      obtain ⟨e, he, rfl⟩ := List.mem_map.1 h
      exact List.mem_map_of_mem ((Tree.delete_sub ap.1 c.root).mem he)
  | sweep now =>
    left
    obtain ⟨e, he, rfl⟩ := List.mem_map.1 h
    have := (sweep_spec hi now).2.1
    simp only [step] at he
    rw [this] at he
    exact List.mem_map_of_mem (List.mem_filter.1 he).1

theorem ordered_step {c : Table C} (op : Op C)
    (ho : c.root.Ordered natCompare)
    (hq : ∀ p ∈ queriesOf [op], ∀ q ∈ waiting c, Close p q) :
    (step c op).1.root.Ordered natCompare := by
  cases op with
  | query now p =>
    simp only [step, add, State.add]
    rw [insert_congr (c2 := natCompare)]
    · exact Tree.ordered_insert natCompare_totalPreorder _ _ _ ho
    · intro e he
      exact compare_of_close (hq _ (by simp [queriesOf]) _ (List.mem_map_of_mem he))
  | response r =>
    cases hs : State.search compare c r with
    | none => rw [step_response_none hs]; exact ho
    | some ap =>
      rw [step_response_some (a := ap.1) (p := ap.2) hs]
      exact Tree.delete_ordered natCompare_totalPreorder _ _ ho
  | sweep now => exact foldl_delete_ordered _ ho

theorem queriesOf_cons (op : Op C) (ops : List (Op C)) :
    queriesOf (op :: ops) = queriesOf [op] ++ queriesOf ops := by
  cases op <;> simp [queriesOf]

theorem ordered_run (ops : List (Op C)) {c : Table C} (hi : Inv c) (ho : c.root.Ordered natCompare)
    (hq : ∀ p ∈ waiting c ++ queriesOf ops, ∀ q ∈ waiting c ++ queriesOf ops, Close p q) :
    (run c ops).1.root.Ordered natCompare ∧
    ∀ p ∈ waiting (run c ops).1, p ∈ waiting c ++ queriesOf ops := by
  induction ops generalizing c with
  | nil => exact ⟨ho, fun p hp => by simpa [run, queriesOf] using hp⟩
  | cons op ops ih =>
    rw [queriesOf_cons] at hq ⊢
    have hsub : ∀ p ∈ waiting (step c op).1 ++ queriesOf ops,
        p ∈ waiting c ++ (queriesOf [op] ++ queriesOf ops) := by
      intro p hp
      rcases List.mem_append.1 hp with hp | hp
      · rcases mem_contents_step hi op hp with h | h
        · exact List.mem_append_left _ h
        · exact List.mem_append_right _ (List.mem_append_left _ h)
      · exact List.mem_append_right _ (List.mem_append_right _ hp)
    have ho' := ordered_step op ho (fun p hp q hqm => hq p
      (List.mem_append_right _ (List.mem_append_left _ hp)) q (List.mem_append_left _ hqm))
    obtain ⟨h1, h2⟩ := ih (inv_step hi op) ho'
      (fun p hp q hqm => hq p (hsub p hp) q (hsub q hqm))
    exact ⟨h1, fun p hp => hsub p (h2 p hp)⟩

end Verif.MContext
