import Verif.Spec.AddressList
import Verif.Props.IpText
import Verif.Props.Arr
/-! Lemmas about the texts of server addresses. -/

namespace Verif.AddressList
open IpText

theorem scanPort_num {s : List Byte} {n : Nat} (h : DecNum s n) (hn : n ≤ 65535) : scanPort s = .ok n [] := by
  obtain ⟨ds, h1, h2, h3⟩ := decNum_digits h
  have hs : ∀ c ∈ s.head?, isSpace c = false ∧ c ≠ 45 ∧ c ≠ 43 := by
    cases s with
    | nil => cases ds <;> simp_all
    | cons c s =>
      cases ds with
      | nil => simp at h1
      | cons d ds =>
        simp only [List.map_cons, List.cons.injEq] at h1
        intro c' hc'
        simp at hc'
        subst hc'
        exact decVal_head _ (by rw [h1.1]; simp)
  have hd := spanDigits_append decVal s ds [] h1 (by simp)
  rw [List.append_nil] at hd
  unfold scanPort
  rw [sign_plain hs]
  simp only [hd, h2, if_neg h3]
  rw [if_pos (by simp; omega)]
  simp

theorem takeWhile_stop (p : Byte → Bool) (t r : List Byte) (ht : ∀ c ∈ t, p c = true) (hr : ∀ c ∈ r.head?, p c = false) :
    (t ++ r).takeWhile p = t ∧ (t ++ r).dropWhile p = r := by
  induction t with
  | nil =>
    cases r with
    | nil => exact ⟨rfl, rfl⟩
    | cons c r => have := hr c (by simp); simp [this]
  | cons c t ih =>
    have hc := ht c (by simp)
    have := ih (fun d hd => ht d (by simp [hd]))
    simp [hc, this]

theorem digit_char {c : Byte} {d : Nat} (h : DecDigit c d) : 48 ≤ c.toNat ∧ c.toNat ≤ 57 := by
  obtain ⟨h1, h2⟩ := h; omega

theorem num_chars {s : List Byte} {n : Nat} (h : DecNum s n) : ∀ c ∈ s, 48 ≤ c.toNat ∧ c.toNat ≤ 57 := by
  induction h with
  | one h => intro c hc; simp at hc; subst hc; exact digit_char h
  | more _ h ih =>
    intro c hc
    rcases List.mem_append.1 hc with hc | hc
    · exact ih c hc
    · simp at hc; subst hc; exact digit_char h

theorem num_ne_nil {s : List Byte} {n : Nat} (h : DecNum s n) : s ≠ [] := by
  cases h <;> simp

theorem num_ge {s : List Byte} {n : Nat} (h : DecNum s n) (h0 : s.head? ≠ some 48) : 10 ^ (s.length - 1) ≤ n := by
  induction h with
  | @one c d h =>
    have h1 := h.2
    have : d ≠ 0 := by
      rintro rfl
      exact h0 (by simp; exact UInt8.toNat_inj.1 (by simpa using h1))
    simp; omega
  | @more s n c d hs h ih =>
    have hne := num_ne_nil hs
    have := ih (by
      cases s with
      | nil => exact absurd rfl hne
      | cons x s => simpa using h0)
    have hl : (s ++ [c]).length - 1 = (s.length - 1) + 1 := by
      cases s with
      | nil => exact absurd rfl hne
      | cons x s => simp
    rw [hl, Nat.pow_succ]
    omega

theorem plain_length {s : List Byte} {a : Byte} (h : Plain s a.toNat) : s.length ≤ 3 := by
  by_cases h0 : s.head? = some 48
  · rw [h.2 h0]; simp
  · have := num_ge h.1 h0
    have ha := UInt8.toNat_lt a
    refine Classical.byContradiction fun hc => ?_
    have : 10 ^ 3 ≤ 10 ^ (s.length - 1) := Nat.pow_le_pow_right (by omega) (by omega)
    omega

theorem v4_chars {t a : List Byte} (h : V4Plain t a) : t.length ≤ 15 ∧ ∀ c ∈ t, c = 46 ∨ (48 ≤ c.toNat ∧ c.toNat ≤ 57) := by
  cases h with
  | mk h1 h2 h3 h4 =>
    have l1 := plain_length h1
    have l2 := plain_length h2
    have l3 := plain_length h3
    have l4 := plain_length h4
    refine ⟨by simp; omega, ?_⟩
    intro x hx
    simp only [List.mem_append, List.mem_cons] at hx
    rcases hx with hx | hx | hx | hx | hx | hx | hx
    · exact .inr (num_chars h1.1 x hx)
    · exact .inl hx
    · exact .inr (num_chars h2.1 x hx)
    · exact .inl hx
    · exact .inr (num_chars h3.1 x hx)
    · exact .inl hx
    · exact .inr (num_chars h4.1 x hx)

theorem hex_chars : ∀ c : Byte, hexVal c ≠ none → c ≠ 93 ∧ c ≠ 91 ∧ c ≠ 58 := forall_byte _ (by decide +kernel)

theorem join_chars {ts : List (List Byte)} {vs : List Nat} (h : Groups ts vs) :
    (join ts).length ≤ 5 * vs.length ∧ ∀ c ∈ join ts, c ≠ 93 := by
  induction h with
  | nil => simp [join]
  | @cons t v ts vs h hs ih =>
    have hl := h.2
    have hc : ∀ c ∈ t, c ≠ 93 := fun c hc => (hex_chars c ((group_chars h.1).2 c hc)).1
    cases hs with
    | nil => simp only [join, List.length_cons, List.length_nil]; exact ⟨by omega, hc⟩
    | @cons t' v' ts' vs' h' hs' =>
      simp only [join, List.length_append, List.length_cons] at ih ⊢
      refine ⟨by omega, ?_⟩
      intro c hm
      rcases List.mem_append.1 hm with hm | hm
      · exact hc c hm
      · rcases List.mem_cons.1 hm with hm | hm
        · subst hm; decide
        · exact ih.2 c hm

theorem v6_chars {t : List Byte} {vs : List Nat} (h : V6Text t vs) : t.length ≤ 45 ∧ ∀ c ∈ t, c ≠ 93 := by
  cases h with
  | full h h8 => have := join_chars h; exact ⟨by omega, this.2⟩
  | short h h' hk h8 =>
    have h1 := join_chars h
    have h2 := join_chars h'
    refine ⟨by simp; omega, ?_⟩
    intro c hm
    rcases List.mem_append.1 hm with hm | hm
    · exact h1.2 c hm
    · simp only [List.mem_cons] at hm
      rcases hm with hm | hm | hm
      · subst hm; decide
      · subst hm; decide
      · exact h2.2 c hm

theorem port_ok {dflt : Nat} {q : List Byte} {p : Nat} (h : PortText dflt q p) (t : List Byte) (ht : ∀ c ∈ t, c ≠ 58) :
    portOf (t ++ q) dflt = some p ∧ (t ++ q).takeWhile (· != 58) = t := by
  have hq : ∀ c ∈ q.head?, (c != 58) = false := by
    cases h with
    | absent => simp
    | given => simp
  have := takeWhile_stop (· != 58) t q (fun c hc => by simpa using ht c hc) hq
  refine ⟨?_, this.1⟩
  unfold portOf
  rw [this.2]
  cases h with
  | absent => rfl
  | given h hp => simp [scanPort_num h hp]

end Verif.AddressList
