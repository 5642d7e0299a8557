import Verif.Spec.ExpandPath
import Verif.Props.ReplaceStr
/-! C129: which file a path in the configuration names. -/

namespace Verif.ExpandPath
open ReplaceStr

theorem replaced_filter {s r : List Byte} {n : Nat} (h : Replaced [34] [] s r n) : r = s.filter (· != 34) := by
  induction h with
  | none s h =>
    rw [List.filter_eq_self.2]
    intro c hc
    simp only [bne_iff_ne, ne_eq]
    rintro rfl
    obtain ⟨a, b, rfl⟩ := List.append_of_mem hc
    exact h a.length ⟨a, b, rfl, rfl⟩
  | one a b r n first _ ih =>
    subst ih
    rw [List.filter_append, List.filter_append]
    congr 1
    symm
    rw [List.filter_eq_self]
    intro c hc
    simp only [bne_iff_ne, ne_eq]
    rintro rfl
    obtain ⟨a1, a2, rfl⟩ := List.append_of_mem hc
    exact first a1.length (by simp) ⟨a1, a2 ++ ([34] ++ b), by simp, rfl⟩

/-- What is done with a path, for every text and whatever `wordexp` does: all quotation marks are left out, in as much of the text as fits the buffer. -/
theorem expandPathTo_eq (wordexp : List Byte → Words) {n : Nat} (hn : 0 < n) (s : List Byte) :
    expandPathTo wordexp n s = expandPath wordexp n ((s.take (n - 1)).filter (· != 34)) := by
  obtain ⟨r, k, h1, h2, -⟩ := replace_unchecked n (s.take (n - 1)) [34] [] (by simp)
  have h3 := replaced_filter h1
  have h4 : r.length ≤ (s.take (n - 1)).length := by rw [h3]; exact List.length_filter_le _ _
  have h5 : (s.take (n - 1)).length ≤ n - 1 := by rw [List.length_take]; omega
  unfold expandPathTo
  rw [h2 (by omega), h3]

theorem filter_none {s : List Byte} (h : 34 ∉ s) : s.filter (· != 34) = s :=
  List.filter_eq_self.2 fun c hc => by
    simp only [bne_iff_ne, ne_eq]
    rintro rfl
    exact h hc

/-- C129: a text without quotation marks that spells a path names this path, if both fit the buffer.  Missing: quotation marks (`documented_false`), texts and paths that
do not fit (`cut_to_fit`, `long_unused`: another file is used), and texts that spell nothing (`undefined_iff`: undefined). -/
theorem named_partial (wordexp : List Byte → Words) {n : Nat} {s p : List Byte} (hq : 34 ∉ s) (hs : s.length < n) (hp : p.length < n) (h : Spells wordexp s p) :
    expandPathTo wordexp n s = .ok p ∧ expandPath wordexp n s = .ok p := by
  have h1 : expandPath wordexp n s = .ok p := by
    unfold expandPath
    rw [h]
    simp only
    rw [if_pos (by omega)]
  refine ⟨?_, h1⟩
  rw [expandPathTo_eq wordexp (by omega), List.take_of_length_le (by omega), filter_none hq, h1]

/-- Of a text that does not fit only the beginning is used; nothing is reported. -/
theorem cut_to_fit (wordexp : List Byte → Words) {n : Nat} {s p : List Byte} (hq : 34 ∉ s) (hn : 0 < n) (hp : p.length < n) (h : Spells wordexp (s.take (n - 1)) p) :
    expandPathTo wordexp n s = .ok p := by
  rw [expandPathTo_eq wordexp hn, filter_none (fun hc => hq (List.mem_of_mem_take hc))]
  unfold expandPath
  rw [h]
  simp only
  rw [if_pos (by omega)]

/-- A path that does not fit is not used, but the text itself, as if it were the path; nothing is reported. -/
theorem long_unused (wordexp : List Byte → Words) {n : Nat} {s p : List Byte} (hq : 34 ∉ s) (hs : s.length < n) (hp : n ≤ p.length) (h : Spells wordexp s p) :
    expandPathTo wordexp n s = .ok s := by
  rw [expandPathTo_eq wordexp (by omega), List.take_of_length_le (by omega), filter_none hq]
  unfold expandPath
  rw [h]
  simp only
  rw [if_neg (by omega)]

/-- It is undefined exactly if `wordexp` reports an error, or no word, for the text without quotation marks. -/
theorem undefined_iff (wordexp : List Byte → Words) {n : Nat} (hn : 0 < n) (s : List Byte) :
    expandPathTo wordexp n s = .undefined ↔
      wordexp ((s.take (n - 1)).filter (· != 34)) = .error ∨ wordexp ((s.take (n - 1)).filter (· != 34)) = .words [] := by
  rw [expandPathTo_eq wordexp hn]
  unfold expandPath
  split
  · rename_i h; simp [h]
  · rename_i h; simp [h]
  · rename_i h
    rw [h]
    split <;> simp

/-- A text names the path it spells. -/
def Documented : Prop := ∀ (n : Nat) (s p : List Byte), s.length < n → p.length < n → Spells shell s p → expandPathTo shell n s = .ok p

/-- The path `/a b`, written as the shell has it, with quotation marks, names `/a`. -/
theorem documented_false : ¬ Documented := by
  intro h
  have := h 384 [34, 47, 97, 32, 98, 34] [47, 97, 32, 98] (by decide) (by decide) (by unfold Spells; decide)
  exact absurd this (by decide)

/-- A text that spells nothing does no harm. -/
def Harmless : Prop := ∀ (n : Nat) (s : List Byte), s ≠ [] → s.length < n → expandPathTo shell n s ≠ .undefined

/-- The name `h(1)`, as file managers make it: what was never set is given back. -/
theorem harmless_false : ¬ Harmless := by
  intro h
  exact h 384 [104, 40, 49, 41] (by decide) (by decide) (by decide)

/-- Two quotation marks, with nothing between: the string at the address 0 is measured. -/
theorem empty_undefined : expandPathTo shell 384 [34, 34] = .undefined := by decide

/-- `'/a b'` and `/a\ b` spell `/a b`, and name it. -/
example : Spells shell [39, 47, 97, 32, 98, 39] [47, 97, 32, 98] ∧ Spells shell [47, 97, 92, 32, 98] [47, 97, 32, 98] ∧
    expandPathTo shell 384 [39, 47, 97, 32, 98, 39] = .ok [47, 97, 32, 98] := by
  unfold Spells
  decide

/-- A buffer of 5 bytes. -/
example : Spells shell ([47, 97, 98, 99, 100].take (5 - 1)) [47, 97, 98, 99] ∧ expandPathTo shell 5 [47, 97, 98, 99, 100] = .ok [47, 97, 98, 99] := by
  unfold Spells
  decide

/-- A home directory, put in for `~`, that does not fit. -/
example : expandPathTo (fun s => if s = [126, 47, 97] then .words [[47, 104, 111, 109, 101, 47, 97]] else shell s) 5 [126, 47, 97] = .ok [126, 47, 97] := by decide

end Verif.ExpandPath
