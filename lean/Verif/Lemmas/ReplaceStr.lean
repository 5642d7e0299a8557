import Verif.Model.ReplaceStr
import Verif.Spec.ReplaceStr
/-! Replacing text: `strstr` finds the first occurrence, the loops meet the specification. -/

namespace Verif.ReplaceStr

theorem occurs_zero {pat s : List Byte} : Occurs pat s 0 ↔ pat.isPrefixOf s = true := by
  rw [List.isPrefixOf_iff_prefix]
  constructor
  · rintro ⟨a, b, rfl, h⟩
    have : a = [] := List.length_eq_zero_iff.mp h
    subst this
    exact ⟨b, by simp⟩
  · rintro ⟨b, rfl⟩
    exact ⟨[], b, by simp, rfl⟩

theorem occurs_succ {pat s : List Byte} {c : Byte} {i : Nat} : Occurs pat (c :: s) (i + 1) ↔ Occurs pat s i := by
  constructor
  · rintro ⟨a, b, h, hl⟩
    cases a with
    | nil => simp at hl
    | cons d a =>
      simp only [List.cons_append, List.cons.injEq] at h
      exact ⟨a, b, h.2, by simpa using hl⟩
  · rintro ⟨a, b, rfl, hl⟩
    exact ⟨c :: a, b, by simp, by simp [hl]⟩

theorem strstr_none {pat s : List Byte} : strstr pat s = none ↔ ∀ i, ¬ Occurs pat s i := by
  induction s with
  | nil =>
    unfold strstr
    by_cases h : pat = []
    · subst h; simp; exact ⟨0, [], [], rfl, rfl⟩
    · simp only [h, if_false, true_iff]
      rintro i ⟨a, b, e, _⟩
      simp at e; exact h e.2.1
  | cons c s ih =>
    unfold strstr
    by_cases h : pat.isPrefixOf (c :: s) = true
    · rw [if_pos h]; simp; exact ⟨0, occurs_zero.mpr h⟩
    · rw [if_neg h, Option.map_eq_none_iff, ih]
      constructor
      · intro hi i
        cases i with
        | zero => rw [occurs_zero]; exact h
        | succ i => rw [occurs_succ]; exact hi i
      · intro hi i; rw [← occurs_succ (c := c)]; exact hi _

theorem strstr_some {pat s : List Byte} {i : Nat} (h : strstr pat s = some i) :
    Occurs pat s i ∧ ∀ j, j < i → ¬ Occurs pat s j := by
  induction s generalizing i with
  | nil =>
    unfold strstr at h
    split at h
    · rename_i hp
      simp at h; subst h; subst hp
      exact ⟨⟨[], [], rfl, rfl⟩, by simp⟩
    · simp at h
  | cons c s ih =>
    unfold strstr at h
    split at h
    · rename_i hp
      simp at h; subst h
      exact ⟨occurs_zero.mpr hp, by simp⟩
    · rename_i hp
      rw [Option.map_eq_some_iff] at h
      obtain ⟨k, hk, rfl⟩ := h
      obtain ⟨h1, h2⟩ := ih hk
      refine ⟨occurs_succ.mpr h1, ?_⟩
      intro j hj
      cases j with
      | zero => rw [occurs_zero]; exact hp
      | succ j => rw [occurs_succ]; exact h2 j (by omega)

theorem strstr_split {pat s : List Byte} {i : Nat} (h : strstr pat s = some i) :
    s = s.take i ++ (pat ++ s.drop (i + pat.length)) ∧ (s.take i).length = i ∧
      ∀ j, j < i → ¬ Occurs pat s j := by
  obtain ⟨⟨a, b, rfl, rfl⟩, h2⟩ := strstr_some h
  refine ⟨?_, by simp, h2⟩
  simp

theorem replaced_exists {ori : List Byte} (des : List Byte) (ho : ori ≠ []) (n : Nat) (s : List Byte) (hn : s.length < n) :
    ∃ r k, Replaced ori des s r k ∧ countLoop ori n s = some k ∧
      (∀ cap (done : List Byte), done.length + max s.length r.length + 1 ≤ cap → replaceLoop cap ori des n done s = some (done ++ r)) ∧
      (r.length : Int) = s.length + ((des.length : Int) - ori.length) * k ∧ k * ori.length ≤ s.length := by
  induction n generalizing s with
  | zero => omega
  | succ n ih =>
    cases hs : strstr ori s with
    | none =>
      refine ⟨s, 0, .none s (strstr_none.mp hs), by simp [countLoop, hs], ?_, by simp, by simp⟩
      intro cap done _
      simp [replaceLoop, hs]
    | some i =>
      obtain ⟨h1, h2, h3⟩ := strstr_split hs
      generalize ha : s.take i = a at h1 h2
      generalize hb : s.drop (i + ori.length) = b at h1
      have hol : 0 < ori.length := List.length_pos_iff.mpr ho
      have hlen : s.length = a.length + (ori.length + b.length) := by rw [h1]; simp
      obtain ⟨r, k, hr, hc, hl, hk, hk'⟩ := ih b (by omega)
      refine ⟨a ++ (des ++ r), k + 1, ?_, ?_, ?_, ?_, ?_⟩
      · rw [h1]; exact .one a b r k (by rw [h2, ← h1]; exact h3) hr
      · simp [countLoop, hs, hb, hc]
      · intro cap done hcap
        simp only [List.length_append] at hcap
        simp only [replaceLoop, hs, hb]
        have e : (r.length : Int) = b.length + ((des.length : Int) - ori.length) * k := hk
        have hfit : done.length + i + des.length + b.length + 1 ≤ cap := by
          by_cases hd : des.length ≤ ori.length
          · omega
          · have : (b.length : Int) ≤ r.length := by
              rw [e]
              have : (0 : Int) ≤ ((des.length : Int) - ori.length) * k := Int.mul_nonneg (by omega) (by omega)
              omega
            omega
        rw [if_pos hfit, ha, hl cap]
        · simp
        · simp only [List.length_append]
          omega
      · simp only [List.length_append, Int.natCast_add, Int.mul_add, Int.natCast_one, Int.mul_one, hk, hlen]
        omega
      · rw [Nat.add_mul, hlen]; omega

theorem replaceChecked_ok {s ori des : List Byte} (ho : ori ≠ []) (cap : Nat) (left : Int) (hl : left ≤ cap) (hs : s.length + 1 ≤ cap) :
    ∃ r k, Replaced ori des s r k ∧
      replaceChecked cap left s ori des = some (if (r.length : Int) + 1 ≤ left then some r else none) := by
  obtain ⟨r, k, h1, h2, h3, h4, _⟩ := replaced_exists des ho (s.length + 1) s (by omega)
  refine ⟨r, k, h1, ?_⟩
  unfold replaceChecked countSub
  rw [h2]
  have e : spaceNeeded s ori des k = (r.length : Int) + 1 := by unfold spaceNeeded; omega
  simp only [e]
  by_cases hr : (r.length : Int) + 1 ≤ left
  · have h5 : replaceStr cap s ori des = some r := by
      unfold replaceStr
      rw [h3 cap [] (by simp; omega)]; simp
    simp only [if_pos hr, h5, Option.map_some]
    exact if_neg (by omega)
  · simp only [if_neg hr]
    exact if_pos (by omega)

theorem occurs_iff {pat s : List Byte} {i : Nat} : Occurs pat s i ↔ ∃ b, s.drop i = pat ++ b ∧ i ≤ s.length := by
  constructor
  · rintro ⟨a, b, rfl, rfl⟩; exact ⟨b, by simp, by simp⟩
  · rintro ⟨b, h, hi⟩
    exact ⟨s.take i, b, by rw [← h, List.take_append_drop], by simp [hi]⟩

theorem Replaced.unique {ori des s r r' : List Byte} {n n' : Nat} (h : Replaced ori des s r n) (h' : Replaced ori des s r' n') :
    r = r' ∧ n = n' := by
  induction h generalizing r' n' with
  | none s h =>
    cases h' with
    | none => exact ⟨rfl, rfl⟩
    | one a b r k hf hr => exact absurd ⟨a, b, rfl, rfl⟩ (h a.length)
  | one a b r k hf hr ih =>
    generalize hs : a ++ (ori ++ b) = s at h'
    cases h' with
    | none _ h => exact absurd ⟨a, b, hs.symm, rfl⟩ (h a.length)
    | one a' b' r' k' hf' hr' =>
      have hl : a.length = a'.length := by
        rcases Nat.lt_trichotomy a.length a'.length with h | h | h
        · exact absurd ⟨a, b, hs.symm, rfl⟩ (hf' _ h)
        · exact h
        · exact absurd ⟨a', b', hs, rfl⟩ (hf _ h)
      obtain ⟨rfl, h2⟩ := List.append_inj hs hl
      have h3 := List.append_cancel_left h2
      subst h3
      obtain ⟨rfl, rfl⟩ := ih hr'
      exact ⟨rfl, rfl⟩

end Verif.ReplaceStr
