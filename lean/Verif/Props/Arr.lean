import Verif.Spec.Arr
/-! Growing arrays behave like lists (C59). -/

namespace Verif.Arr

variable {α : Type}

/-- The elements in use. -/
def contents (a : Arr α) : List (Option α) := a.rooms.take a.used

def Inv (a : Arr α) : Prop := a.used ≤ a.rooms.length

theorem contents_length {a : Arr α} (h : Inv a) : (contents a).length = a.used := by
  simp [contents]; exact Nat.min_eq_left h

theorem contents_get {a : Arr α} (i : Nat) (hi : i < a.used) : (contents a)[i]? = a.rooms[i]? := by
  simp [contents, hi]

theorem realloc_spec {ok : Bool} {a b : Arr α} {n : Nat} (h : realloc ok a n = some b) (hn : a.rooms.length ≤ n) :
    b.rooms = a.rooms ++ List.replicate (n - a.rooms.length) none ∧ b.used = a.used := by
  unfold realloc at h
  split at h
  · cases h
    refine ⟨List.take_of_length_le (by simp; omega), rfl⟩
  · cases h

theorem push_spec {ok : Bool} {x : α} {a : Arr α} (h : Inv a) :
    (ok = false ∧ pushBack ok (some x) a = some (a, none)) ∨
    ∃ b, pushBack ok (some x) a = some (b, some a.used) ∧ Inv b ∧ contents b = contents a ++ [some x] := by
  have key : ∀ a1 : Arr α, a1.used = a.used → a.used < a1.rooms.length → contents a1 = contents a →
      ∃ b, (write a1 a1.used x).map (fun a2 => ({ a2 with used := a2.used + 1 }, some a2.used)) =
        some (b, some a.used) ∧ Inv b ∧ contents b = contents a ++ [some x] := by
    intro a1 h1 h2 h3
    unfold write
    rw [if_pos (by omega)]
    refine ⟨_, by rw [Option.map_some]; rw [← h1], ?_, ?_⟩
    · simp [Inv]; omega
    · rw [← h3]
      simp only [contents]
      rw [List.take_add_one]
      simp [List.take_set, h1]
      rw [List.set_eq_of_length_le (by simp; omega)]
      rw [List.getElem?_set_self (by omega)]
      rfl
  unfold pushBack
  dsimp only
  by_cases hu : a.used = a.rooms.length
  · rw [if_pos hu]
    cases ok with
    | false => exact .inl ⟨rfl, rfl⟩
    | true =>
      right
      cases hr : realloc true a (if a.rooms.length < 2 then 2 else a.rooms.length + a.rooms.length / 2) with
      | none => simp [realloc] at hr
      | some a1 =>
        obtain ⟨h1, h2⟩ := realloc_spec hr (by split <;> omega)
        refine key a1 h2 ?_ ?_
        · rw [h1]; simp; split <;> omega
        · simp only [contents]; rw [h1, h2, List.take_append_of_le_length (by omega)]
  · rw [if_neg hu]
    right
    exact key a rfl (by unfold Inv at h; omega) rfl

theorem set_spec {ok : Bool} {i : Nat} {x : α} {a : Arr α} (h : Inv a) :
    (ok = false ∧ setToSubscript ok i x a = some (a, none)) ∨
    ∃ b, setToSubscript ok i x a = some (b, some i) ∧ Inv b ∧ Put (contents a) (contents b) i x := by
  have key : ∀ a1 : Arr α, a1.used = a.used → i < a1.rooms.length → a.used ≤ a1.rooms.length → contents a1 = contents a →
      ∃ b, (write a1 i x).map (fun a2 => (if a2.used < i + 1 then { a2 with used := i + 1 } else a2, some i)) =
        some (b, some i) ∧ Inv b ∧ Put (contents a) (contents b) i x := by
    intro a1 h1 h2 h4 h3
    unfold write
    rw [if_pos (by omega)]
    refine ⟨_, by rw [Option.map_some], ?_, ?_⟩
    · simp only [Inv]; split <;> simp <;> omega
    · have hg : ∀ j, j < a.used → (contents a)[j]? = a1.rooms[j]? := by
        intro j hj
        rw [← h3, contents_get j (by omega)]
      refine ⟨?_, ?_, ?_⟩
      · rw [contents_length h]
        simp only [contents]
        split <;> simp <;> omega
      · simp only [contents]
        split
        · rw [List.getElem?_take, if_pos (by simp)]
          simp [List.getElem?_set_self h2]
        · rename_i hlt
          dsimp only at hlt ⊢
          rw [List.getElem?_take, if_pos (by omega)]
          simp [List.getElem?_set_self h2]
      · intro j hj hl
        rw [contents_length h] at hl
        rw [hg j hl]
        simp only [contents]
        split
        · rename_i hlt
          dsimp only at hlt ⊢
          rw [List.getElem?_take, if_pos (by omega), List.getElem?_set_ne (by omega)]
        · rw [List.getElem?_take, if_pos (by dsimp only; omega), List.getElem?_set_ne (by omega)]
  unfold setToSubscript
  dsimp only
  by_cases hi : i ≥ a.rooms.length
  · rw [if_pos hi]
    cases ok with
    | false => exact .inl ⟨rfl, rfl⟩
    | true =>
      right
      cases hr : realloc true a (i + 1) with
      | none => simp [realloc] at hr
      | some a1 =>
        obtain ⟨h1, h2⟩ := realloc_spec hr (by omega)
        refine key a1 h2 ?_ ?_ ?_
        · rw [h1]; simp; omega
        · rw [h1]; simp; unfold Inv at h; omega
        · simp only [contents]; rw [h1, h2, List.take_append_of_le_length h]
  · rw [if_neg hi]
    right
    exact key a rfl (by omega) h rfl

theorem get_spec {a : Arr α} (h : Inv a) (i : Int) :
    step a (.get i) = some (a, .elem (if 0 ≤ i then (contents a)[i.toNat]? else none)) := by
  simp only [step, getBySubscript]
  by_cases hi : 0 ≤ i ∧ i < a.used
  · rw [if_pos hi, if_pos hi.1]
    simp only [read]
    rw [contents_get i.toNat (by omega)]
    have : i.toNat < a.rooms.length := by unfold Inv at h; omega
    rw [List.getElem?_eq_getElem this]
    rfl
  · rw [if_neg hi]
    by_cases h0 : 0 ≤ i
    · rw [if_pos h0, List.getElem?_eq_none (by rw [contents_length h]; omega)]
    · rw [if_neg h0]

theorem run_spec (cs : List (Cmd α)) : ∀ a : Arr α, Inv a →
    ∃ b rs, run a cs = some (b, rs) ∧ Inv b ∧ Listlike (contents a) cs rs := by
  induction cs with
  | nil => intro a h; exact ⟨a, [], rfl, h, rfl⟩
  | cons c cs ih =>
    intro a h
    rw [run]
    cases c with
    | push ok x =>
      simp only [step]
      rcases push_spec (ok := ok) (x := x) h with ⟨h1, h2⟩ | ⟨b, h1, h2, h3⟩
      · obtain ⟨b, rs, h3, h4, h5⟩ := ih a h
        rw [h2]
        exact ⟨b, .sub none :: rs, by simp [h3], h4, .inr ⟨h1, rfl, h5⟩⟩
      · obtain ⟨b', rs, h4, h5, h6⟩ := ih b h2
        rw [h1]
        refine ⟨b', .sub (some a.used) :: rs, by simp [h4], h5, .inl ⟨by rw [contents_length h], ?_⟩⟩
        rw [← h3]; exact h6
    | set ok i x =>
      simp only [step]
      rcases set_spec (ok := ok) (i := i) (x := x) h with ⟨h1, h2⟩ | ⟨b, h1, h2, h3⟩
      · obtain ⟨b, rs, h3, h4, h5⟩ := ih a h
        rw [h2]
        exact ⟨b, .sub none :: rs, by simp [h3], h4, .inr ⟨h1, rfl, h5⟩⟩
      · obtain ⟨b', rs, h4, h5, h6⟩ := ih b h2
        rw [h1]
        exact ⟨b', .sub (some i) :: rs, by simp [h4], h5, .inl ⟨rfl, contents b, h3, h6⟩⟩
    | get i =>
      obtain ⟨b, rs, h3, h4, h5⟩ := ih a h
      rw [get_spec h]
      exact ⟨b, _ :: rs, by simp [h3], h4, rfl, h5⟩
    | clear =>
      obtain ⟨b, rs, h3, h4, h5⟩ := ih (clear a) (by simp [clear, Inv])
      simp only [step]
      exact ⟨b, .done :: rs, by simp [h3], h4, rfl, by simpa [contents, clear] using h5⟩

/-- C59: whatever is done with an array, no access is outside its memory, and the replies are those of
a list. -/
theorem list_like (n : Nat) (cs : List (Cmd α)) : ∃ a rs, run (init n) cs = some (a, rs) ∧ Listlike [] cs rs := by
  obtain ⟨b, rs, h1, -, h3⟩ := run_spec cs (init n) (by simp [Inv, init])
  exact ⟨b, rs, h1, by simpa [contents, init] using h3⟩

example : (run (init 0) [.push true 5, .push true 6, .push true 7, .get 2, .set true 4 9, .get 4, .get 5, .get 0, .clear,
    .get 0]).map (·.2) = some [.sub (some 0), .sub (some 1), .sub (some 2), .elem (some (some 7)), .sub (some 4),
      .elem (some (some 9)), .elem none, .elem (some (some 5)), .done, .elem none] := by decide
example : (run (init 1) [.push false 5, .push false 6]).map (·.2) = some [.sub (some 0), Reply.sub none] := by decide

end Verif.Arr
