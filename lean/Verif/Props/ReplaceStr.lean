import Verif.Lemmas.ReplaceStr
/-! C97: replacing text in a buffer. -/

namespace Verif.ReplaceStr

/-- C97: with a length that is not larger than the buffer, the text is replaced exactly when the new one fits, all occurrences
of it, and nothing outside the buffer is written. -/
theorem replace_exact (cap : Nat) (left : Int) (s ori des : List Byte) (ho : ori ≠ []) (hl : left ≤ cap) (hs : s.length + 1 ≤ cap) :
    ∃ r n, Replaced ori des s r n ∧ replaceChecked cap left s ori des = some (if (r.length : Int) + 1 ≤ left then some r else none) :=
  replaceChecked_ok ho cap left hl hs

/-- C97: without the length the buffer has to have room for both texts. -/
theorem replace_unchecked (cap : Nat) (s ori des : List Byte) (ho : ori ≠ []) :
    ∃ r n, Replaced ori des s r n ∧ (max s.length r.length + 1 ≤ cap → replaceStr cap s ori des = some r) ∧
      (r.length : Int) = s.length + ((des.length : Int) - ori.length) * n := by
  obtain ⟨r, k, h1, -, h3, h4, -⟩ := replaced_exists des ho (s.length + 1) s (by omega)
  refine ⟨r, k, h1, fun h => ?_, h4⟩
  have := h3 cap [] (by simp; omega)
  simpa [replaceStr] using this

/-- C97: what the result is does not depend on how the occurrences are looked for. -/
theorem replaced_unique {ori des s r r' : List Byte} {n n' : Nat} (h : Replaced ori des s r n) (h' : Replaced ori des s r' n') : r = r' ∧ n = n' :=
  h.unique h'

/-- C97: the number of occurrences. -/
theorem count_exact (s ori : List Byte) (ho : ori ≠ []) (des : List Byte) : ∃ r n, Replaced ori des s r n ∧ countSub ori s = some n := by
  obtain ⟨r, k, h1, h2, -, -, -⟩ := replaced_exists des ho (s.length + 1) s (by omega)
  exact ⟨r, k, h1, h2⟩

/-- Non-vacuity; what is put in is not looked at again. -/
example : replaceChecked 40 20 (str "a%t%tb") (str "%t") (str "<%t>") = some (some (str "a<%t><%t>b")) := by decide +kernel
example : replaceChecked 40 10 (str "a%t%tb") (str "%t") (str "<%t>") = some none := by decide +kernel
example : replaceChecked 40 11 (str "a%t%tb") (str "%t") (str "<%t>") = some (some (str "a<%t><%t>b")) := by decide +kernel
example : replaceChecked 7 7 (str "a%t%tb") (str "%t") (str "x") = some (some (str "axxb")) := by decide +kernel

/-- The length is trusted: one that is larger than the buffer lets it be overrun. -/
theorem wrong_length_overruns : replaceChecked 7 20 (str "a%t%tb") (str "%t") (str "<%t>") = none := by decide +kernel

/-- An empty text to look for is found without end. -/
theorem empty_endless (cap : Nat) (left : Int) (s des : List Byte) : replaceChecked cap left s [] des = none := by
  have key : ∀ n (s : List Byte), countLoop [] n s = none := by
    intro n
    induction n with
    | zero => intro s; rfl
    | succ n ih =>
      intro s
      have : strstr [] s = some 0 := by cases s <;> simp [strstr]
      simp [countLoop, this, ih]
  unfold replaceChecked countSub
  rw [key]

end Verif.ReplaceStr
