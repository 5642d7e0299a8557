import Verif.Model.Prime
import Mathlib.Data.Nat.Prime.Basic
/-! The prime functions compute primes (C42).  The specification is Mathlib's `Nat.Prime`. -/

namespace Verif.Prime

/-- Without small divisors of the other parity, the loop decides primality. -/
theorem noDivisor_iff (n i : Nat) (hi : 3 ≤ i) (hodd : i % 2 = 1) (hn : 2 < n) (h2 : n % 2 = 1)
    (hsmall : ∀ d, 2 ≤ d → d < i → n % d ≠ 0) : noDivisor n i = true ↔ Nat.Prime n := by
  induction i using noDivisor.induct n with
  | case1 i h h0 =>
    rw [noDivisor, dif_pos h, if_pos h0]
    simp only [Bool.false_eq_true, false_iff]
    intro hp
    have := (Nat.dvd_prime hp).1 (Nat.dvd_of_mod_eq_zero h0)
    have hk : i ≤ (i - 1) * (i - 1) := by
      have := Nat.mul_le_mul_left (i - 1) (show 2 ≤ i - 1 by omega)
      omega
    omega
  | case2 i h h0 ih =>
    rw [noDivisor, dif_pos h, if_neg h0]
    refine ih (by omega) (by omega) ?_
    intro d hd hlt
    rcases Nat.lt_or_ge d i with h1 | h1
    · exact hsmall d hd h1
    · rcases Nat.eq_or_lt_of_le h1 with h1 | h1
      · rw [← h1]; exact h0
      · intro hz
        have h3 : d % 2 = 0 := by omega
        have h4 : 2 ∣ n := Dvd.dvd.trans (Nat.dvd_of_mod_eq_zero h3) (Nat.dvd_of_mod_eq_zero hz)
        omega
  | case3 i h =>
    rw [noDivisor, dif_neg h]
    simp only [true_iff]
    have hle : n ≤ (i - 1) * (i - 1) := by
      have : ¬ (i - 1) * (i - 1) < n := fun hh => h ⟨by omega, hh⟩
      omega
    rw [Nat.prime_def_le_sqrt]
    refine ⟨by omega, fun m hm hs hd => ?_⟩
    have h1 : m * m ≤ n := Nat.le_sqrt.1 hs
    have h2 : m < i := by
      by_contra hc
      have : i * i ≤ m * m := Nat.mul_le_mul (by omega) (by omega)
      have : (i - 1) * (i - 1) < i * i := Nat.mul_lt_mul'' (by omega) (by omega)
      omega
    exact hsmall m hm h2 (Nat.mod_eq_zero_of_dvd hd)

/-- C42: the test is right for every number. -/
theorem isPrime_iff (n : Int) : isPrime n = true ↔ 0 ≤ n ∧ Nat.Prime n.toNat := by
  unfold isPrime
  split
  · rename_i h
    simp only [Bool.false_eq_true, false_iff, not_and]
    intro h0 hp
    have := hp.two_le
    omega
  · split
    · rename_i h
      subst h
      simpa using Nat.prime_two
    · split
      · rename_i h1 h2 h3
        simp only [Bool.false_eq_true, false_iff, not_and]
        intro h0 hp
        rcases hp.eq_two_or_odd with h | h <;> omega
      · rename_i h1 h2 h3
        rw [noDivisor_iff n.toNat 3 (by omega) (by omega) (by omega) (by omega)]
        · constructor
          · exact fun h => ⟨by omega, h⟩
          · exact fun h => h.2
        · intro d hd hlt
          have : d = 2 := by omega
          subst this
          omega

theorem nextLoop_spec (fuel : Nat) : ∀ (c r : Int), 3 ≤ c → c % 2 = 1 → nextLoop fuel c = some r →
    c ≤ r ∧ isPrime r = true ∧ ∀ q : Int, c ≤ q → q < r → isPrime q = false := by
  induction fuel with
  | zero => intro c r _ _ h; cases h
  | succ fuel ih =>
    intro c r hc ho h
    rw [nextLoop] at h
    split at h
    · cases h
    · split at h
      · rename_i hp
        cases h
        exact ⟨by omega, hp, fun q h1 h2 => by omega⟩
      · rename_i hp
        obtain ⟨h1, h2, h3⟩ := ih (c + 2) r (by omega) (by omega) h
        refine ⟨by omega, h2, fun q hq hr => ?_⟩
        rcases (show q < (c + 2) ∨ (c + 2) ≤ q by omega) with h4 | h4
        · rcases (show q < (c + 1) ∨ (c + 1) ≤ q by omega) with h5 | h5
          · have : q = c := by omega
            subst this; simpa using hp
          · unfold isPrime
            rw [if_neg (by omega), if_neg (by omega), if_pos (by omega)]
        · exact h3 q h4 hr

theorem nextLoop_total (p : Int) (hp : isPrime p = true) (hmax : p ≤ 2147483647) :
    ∀ (fuel : Nat) (c : Int), c % 2 = 1 → p % 2 = 1 → c ≤ p → p < c + 2 * fuel → ∃ r, nextLoop fuel c = some r := by
  intro fuel
  induction fuel with
  | zero => intro c _ _ h1 h2; omega
  | succ fuel ih =>
    intro c hc ho h1 h2
    rw [nextLoop, if_neg (by omega)]
    split
    · exact ⟨_, rfl⟩
    · rename_i hn
      have : c ≠ p := by rintro rfl; exact hn hp
      exact ih (c + 2) (by omega) ho (by omega) (by omega)

/-- The greatest `int` is prime. -/
theorem maxInt_prime : isPrime 2147483647 = true := by decide +kernel

/-- C42, the full claim: the function returns the least prime that is not below its argument. -/
def Next : Prop := ∀ c : Int, c ≤ 2147483647 →
  ∃ fuel r, findNextPrime fuel c = some r ∧ 0 ≤ r ∧ Nat.Prime r.toNat ∧ c ≤ r ∧
    ∀ q : Nat, Nat.Prime q → c ≤ q → r ≤ q

/-- C42 is false of the code: the next prime behind 1 is given as 3. -/
theorem next_false : ¬ Next := by
  intro h
  obtain ⟨fuel, r, h1, h2, h3, h4, h5⟩ := h 1 (by omega)
  have h6 : (2 : Int) < r := by
    unfold findNextPrime at h1
    rw [if_neg (by decide +kernel)] at h1
    have := (nextLoop_spec fuel _ r (by decide) (by decide) h1).1
    have e : roundUp 1 2 + 1 = 3 := by decide
    omega
  have := h5 2 Nat.prime_two (by omega)
  omega

/-- C42: for arguments of at least 2 the search ends within the range of `int` with the least prime that
is not below the argument. -/
theorem next_partial (c : Int) (h2 : 2 ≤ c) (hmax : c ≤ 2147483647) :
    ∃ fuel r, findNextPrime fuel c = some r ∧ r ≤ 2147483647 ∧ Nat.Prime r.toNat ∧ c ≤ r ∧
      ∀ q : Nat, Nat.Prime q → c ≤ q → r ≤ q := by
  have least : ∀ r : Int, (∀ q : Int, c ≤ q → q < r → isPrime q = false) →
      ∀ q : Nat, Nat.Prime q → c ≤ q → r ≤ q := by
    intro r h q hq hc
    by_contra hlt
    have := h q hc (by omega)
    rw [(isPrime_iff q).2 ⟨by omega, by simpa using hq⟩] at this
    cases this
  by_cases hp : isPrime c = true
  · refine ⟨0, c, by simp [findNextPrime, hp], hmax, ((isPrime_iff c).1 hp).2, by omega, least c (fun q h1 h2 => by omega)⟩
  · have hne : c ≠ 2147483647 := by rintro rfl; exact hp maxInt_prime
    have hne2 : c ≠ 2 := by rintro rfl; exact hp (by decide +kernel)
    have hr : roundUp c 2 + 1 = c + 1 + c % 2 := by
      unfold roundUp
      rw [Int.tdiv_eq_ediv_of_nonneg (by omega)]
      omega
    have hcase : ∀ q : Int, c ≤ q → q < c + 1 + c % 2 → isPrime q = false := by
      intro q h1 h3
      rcases (show c < q ∨ q ≤ c by omega) with h4 | h4
      · unfold isPrime
        rw [if_neg (by omega), if_neg (by omega), if_pos (by omega)]
      · have : q = c := by omega
        subst this; simpa using hp
    obtain ⟨r, h⟩ := nextLoop_total 2147483647 maxInt_prime (by omega) 1073741824 (c + 1 + c % 2) (by omega) (by omega)
      (by omega) (by omega)
    have hle : ∀ (fuel : Nat) (c r : Int), nextLoop fuel c = some r → r ≤ 2147483647 := by
      intro fuel
      induction fuel with
      | zero => intro c r h; cases h
      | succ fuel ih =>
        intro c r h
        rw [nextLoop] at h
        split at h
        · cases h
        · split at h
          · cases h; omega
          · exact ih _ _ h
    obtain ⟨h5, h6, h7⟩ := nextLoop_spec _ _ r (by omega) (by omega) h
    refine ⟨1073741824, r, ?_, hle _ _ _ h, ((isPrime_iff r).1 h6).2, by omega, least r ?_⟩
    · unfold findNextPrime
      rw [if_neg (by simpa using hp), hr]
      exact h
    · intro q h8 h9
      rcases (show q < (c + 1 + c % 2) ∨ (c + 1 + c % 2) ≤ q by omega) with h10 | h10
      · exact hcase q h8 h10
      · exact h7 q h10 h9

example : findNextPrime 10 24 = some 29 := by decide +kernel
example : findNextPrime 10 2147483630 = some 2147483647 := by decide +kernel

end Verif.Prime
