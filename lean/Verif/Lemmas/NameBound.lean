import Verif.Props.Name
import Verif.Lemmas.HostsLoop
import Verif.Lemmas.Cache
/-! How many steps the decoding of a name takes: no more than the message is long. -/

namespace Verif.Name
open DnsCache

/-- The name at `p` is read in `n` steps, a step being a length byte with its label, a pointer or the final zero. -/
inductive Steps (mem : Nat → Byte) (len : Nat) : Nat → Nat → Prop where
  | root (p : Nat) (h : mem p = 0) (hp : p < len) : Steps mem len 1 p
  | label (p L n : Nat) (h1 : 1 ≤ L) (h2 : L ≤ 63) (hc : mem p = UInt8.ofNat L) (hp : p + 1 + L ≤ len)
      (hr : Steps mem len n (p + 1 + L)) : Steps mem len (n + 1) p
  | pointer (p q n : Nat) (hp : p + 2 ≤ len) (hq : q < 16384) (hc : mem p = UInt8.ofNat (192 + q / 256))
      (hd : mem (p + 1) = UInt8.ofNat q) (hr : Steps mem len n q) : Steps mem len (n + 1) p

theorem steps_lt {mem : Nat → Byte} {len n p : Nat} (h : Steps mem len n p) : p < len := by
  cases h <;> omega

theorem steps_unique {mem : Nat → Byte} {len n m p : Nat} (h : Steps mem len n p) (h' : Steps mem len m p) : n = m := by
  induction h generalizing m with
  | root p h hp =>
    cases h' with
    | root => rfl
    | label _ L n h1 h2 hc hp hr =>
      rw [h] at hc
      have := u8_ofNat_toNat (n := L) (by omega)
      rw [← hc] at this; simp at this; omega
    | pointer _ q n hp hq hc hd hr =>
      rw [h] at hc
      have := u8_ofNat_toNat (n := 192 + q / 256) (by omega)
      rw [← hc] at this; simp at this; omega
  | label p L n h1 h2 hc hp hr ih =>
    have hL := u8_ofNat_toNat (n := L) (by omega)
    cases h' with
    | root _ h =>
      rw [hc] at h; rw [h] at hL; simp at hL; omega
    | label _ L' n' h1' h2' hc' hp' hr' =>
      have := u8_ofNat_toNat (n := L') (by omega)
      rw [← hc', hc, hL] at this
      subst this
      rw [ih hr']
    | pointer _ q n hp hq hc' hd hr =>
      have := u8_ofNat_toNat (n := 192 + q / 256) (by omega)
      rw [← hc', hc, hL] at this; omega
  | pointer p q n hp hq hc hd hr ih =>
    have hP := u8_ofNat_toNat (n := 192 + q / 256) (by omega)
    cases h' with
    | root _ h => rw [hc] at h; rw [h] at hP; simp at hP; omega
    | label _ L' n' h1' h2' hc' hp' hr' =>
      have := u8_ofNat_toNat (n := L') (by omega)
      rw [← hc', hc, hP] at this; omega
    | pointer _ q' n' hp' hq' hc' hd' hr' =>
      have e1 := u8_ofNat_toNat (n := 192 + q' / 256) (by omega)
      rw [← hc', hc, hP] at e1
      have e2 : (UInt8.ofNat q').toNat = q' % 256 := by simp
      have e3 : (UInt8.ofNat q).toNat = q % 256 := by simp
      rw [← hd', hd, e3] at e2
      have : q' = q := by omega
      subst this
      rw [ih hr']

/-- All the positions read. -/
theorem steps_places {mem : Nat → Byte} {len n p : Nat} (h : Steps mem len n p) :
    ∃ l : List Nat, l.length = n ∧ l.Nodup ∧ ∀ i ∈ l, i < len ∧ ∃ m, m ≤ n ∧ Steps mem len m i := by
  induction h with
  | root p h hp => exact ⟨[p], rfl, by simp, by simp; exact ⟨hp, 1, Nat.le_refl _, .root p h hp⟩⟩
  | label p L n h1 h2 hc hp hr ih =>
    obtain ⟨l, e, hn, hl⟩ := ih
    have hs := Steps.label p L n h1 h2 hc hp hr
    refine ⟨p :: l, by simp [e], List.nodup_cons.2 ⟨fun hm => ?_, hn⟩, ?_⟩
    · obtain ⟨_, m, hm, hs'⟩ := hl p hm
      have := steps_unique hs hs'; omega
    · intro i hi
      rcases List.mem_cons.1 hi with rfl | hi
      · exact ⟨by omega, _, Nat.le_refl _, hs⟩
      · obtain ⟨a, m, b, c⟩ := hl i hi
        exact ⟨a, m, by omega, c⟩
  | pointer p q n hp hq hc hd hr ih =>
    obtain ⟨l, e, hn, hl⟩ := ih
    have hs := Steps.pointer p q n hp hq hc hd hr
    refine ⟨p :: l, by simp [e], List.nodup_cons.2 ⟨fun hm => ?_, hn⟩, ?_⟩
    · obtain ⟨_, m, hm, hs'⟩ := hl p hm
      have := steps_unique hs hs'; omega
    · intro i hi
      rcases List.mem_cons.1 hi with rfl | hi
      · exact ⟨by omega, _, Nat.le_refl _, hs⟩
      · obtain ⟨a, m, b, c⟩ := hl i hi
        exact ⟨a, m, by omega, c⟩

theorem steps_bound {mem : Nat → Byte} {len n p : Nat} (h : Steps mem len n p) : n ≤ len := by
  obtain ⟨l, rfl, hn, hl⟩ := steps_places h
  exact Cache.nodup_length_le hn (fun i hi => (hl i hi).1)

theorem denotes_steps {mem : Nat → Byte} {len p k : Nat} {ls : List (List Byte)} (h : Denotes mem len p ls k) :
    ∃ n, Steps mem len n p := by
  induction h with
  | root p h hp => exact ⟨1, .root p h hp⟩
  | label p l ls k h1 h2 hc hl hp hr ih => obtain ⟨n, hn⟩ := ih; exact ⟨n + 1, .label p l.length n h1 h2 hc hp hn⟩
  | pointer p q ls k hp hq hc hd hr ih => obtain ⟨n, hn⟩ := ih; exact ⟨n + 1, .pointer p q n hp hq hc hd hn⟩

/-- With as many steps as the name takes, the decoder does not run out of them. -/
theorem getLoop_steps {mem : Nat → Byte} {len n p : Nat} (h : Steps mem len n p) (hb : Bool) (blen N : Nat) :
    ∀ (fuel : Nat) (buf : List Byte) (k : Nat) (red : Bool), n ≤ fuel → (getLoop mem hb blen (some N) fuel p buf k red).out ≠ .noFuel := by
  have hfin : ∀ (buf : List Byte) (k : Nat) (red : Bool), finish (some N) buf k red ≠ .noFuel := by
    intro buf k red
    unfold finish
    dsimp only
    repeat' split
    all_goals simp
  have hter : ∀ (buf : List Byte), terminate N buf ≠ .noFuel := by
    intro buf
    unfold terminate
    repeat' split
    all_goals simp
  induction h with
  | root p h hp =>
    intro fuel buf k red hf
    obtain ⟨f, rfl⟩ : ∃ g, fuel = g + 1 := ⟨fuel - 1, by omega⟩
    unfold getLoop
    rw [if_pos h]
    exact hfin _ _ _
  | label p L n h1 h2 hc hp hr ih =>
    intro fuel buf k red hf
    obtain ⟨f, rfl⟩ : ∃ g, fuel = g + 1 := ⟨fuel - 1, by omega⟩
    have hL : (mem p).toNat = L := by rw [hc, u8_ofNat_toNat (by omega)]
    have hne : mem p ≠ 0 := by
      intro h0; rw [h0] at hL; simp at hL; omega
    have hnp : isPtr (mem p) = false := by
      rw [Bool.eq_false_iff]; intro hh; rw [isPtr_iff] at hh; omega
    unfold getLoop
    rw [if_neg hne, if_neg (by simp [hnp]), hL]
    dsimp only
    split
    · simp
    · split
      · split
        · simp
        · exact ih f _ _ _ (by omega)
      · exact hter _
  | pointer p q n hp hq hc hd hr ih =>
    intro fuel buf k red hf
    obtain ⟨f, rfl⟩ : ∃ g, fuel = g + 1 := ⟨fuel - 1, by omega⟩
    have hP : (mem p).toNat = 192 + q / 256 := by rw [hc, u8_ofNat_toNat (by omega)]
    have hD : (mem (p + 1)).toNat = q % 256 := by
      rw [hd]; simp
    have hne : mem p ≠ 0 := by
      intro h0; rw [h0] at hP; simp at hP; omega
    have hisp : isPtr (mem p) = true := by rw [isPtr_iff]; omega
    have hto : ptrTo mem p = q := by unfold ptrTo; rw [hP, hD]; omega
    unfold getLoop
    rw [if_neg hne, if_pos hisp, hto]
    dsimp only
    split
    · simp
    · exact ih f _ _ _ (by omega)

/-- A name of a message of `len` bytes is decoded in `len` steps, into any buffer. -/
theorem decode_ends {mem : Nat → Byte} {len p k : Nat} {ls : List (List Byte)} (h : Denotes mem len p ls k) (N : Nat) {fuel : Nat}
    (hf : len ≤ fuel) : (getHostName mem len p (some N) fuel).out ≠ .noFuel := by
  obtain ⟨n, hn⟩ := denotes_steps h
  have := steps_bound hn
  exact getLoop_steps hn true len N fuel [] 0 false (by omega)

/-- Copying a name takes as many steps as it has bytes and pointers. -/
theorem copyLabel_steps {mem : Nat → Byte} {len p k : Nat} {ls : List (List Byte)} (h : Denotes mem len p ls k)
    (hz : ∀ l ∈ ls, ∀ c ∈ l, c ≠ 0) (hs : HostsLoop.Spec.Simple ls) : ∃ n, Steps mem len n p ∧
      ∀ fuel, n + (wire ls).length ≤ fuel → copyLabel mem fuel p = some (wire ls) := by
  have hby : ∀ (bs : List Byte) (p fuel : Nat), At mem p bs → (∀ c ∈ bs, c ≠ 0 ∧ c.toNat < 192) →
      copyLabel mem (fuel + bs.length) p = (copyLabel mem fuel (p + bs.length)).map (bs ++ ·) := by
    intro bs
    induction bs with
    | nil => intro p fuel _ _; simp
    | cons c bs ih =>
      intro p fuel hat hc
      obtain ⟨h1, h2⟩ := At.cons.1 hat
      obtain ⟨c1, c2⟩ := hc c (by simp)
      rw [List.length_cons, ← Nat.add_assoc, copyLabel]
      rw [if_neg (by rw [h1, isPtr_iff]; omega), if_neg (by rw [h1]; exact c1), ih _ _ h2 (fun x hx => hc x (by simp [hx])), h1,
        show p + 1 + bs.length = p + (bs.length + 1) by omega]
      cases copyLabel mem fuel (p + (bs.length + 1)) <;> simp
  induction h with
  | root p h hp =>
    refine ⟨1, .root p h hp, fun fuel hf => ?_⟩
    obtain ⟨f, rfl⟩ : ∃ g, fuel = g + 1 := ⟨fuel - 1, by omega⟩
    rw [copyLabel, if_neg (by rw [h, isPtr_iff]; decide), if_pos h]
    rfl
  | label p l ls k h1 h2 hc hl hp hr ih =>
    obtain ⟨n, hn, e⟩ := ih (fun x hx => hz x (by simp [hx])) (fun x hx => hs x (by simp [hx]))
    refine ⟨n + 1, .label p l.length n h1 h2 hc hp hn, fun fuel hf => ?_⟩
    simp only [wire, List.length_cons, List.length_append] at hf
    have := hby (UInt8.ofNat l.length :: l) p (fuel - (l.length + 1)) (At.cons.2 ⟨hc, hl⟩) (by
      intro c hc
      rcases List.mem_cons.1 hc with rfl | hc
      · have := u8_ofNat_toNat (n := l.length) (by omega)
        refine ⟨fun h => ?_, by omega⟩
        rw [h] at this
        simp at this; omega
      · exact ⟨hz l (by simp) c hc, hs l (by simp) c hc⟩)
    rw [List.length_cons, show fuel - (l.length + 1) + (l.length + 1) = fuel by omega,
      show p + (l.length + 1) = p + 1 + l.length by omega, e _ (by omega)] at this
    rw [this]
    simp [wire]
  | pointer p q ls k hp hq hc hd hr ih =>
    obtain ⟨n, hn, e⟩ := ih hz hs
    refine ⟨n + 1, .pointer p q n hp hq hc hd hn, fun fuel hf => ?_⟩
    obtain ⟨f, rfl⟩ : ∃ g, fuel = g + 1 := ⟨fuel - 1, by omega⟩
    have c1 : (mem p).toNat = 192 + q / 256 := by rw [hc]; exact u8_ofNat_toNat (by omega)
    have c2 : (mem (p + 1)).toNat = q % 256 := by rw [hd]; simp
    have hto : ptrTo mem p = q := by unfold ptrTo; rw [c1, c2]; omega
    rw [copyLabel, if_pos (by rw [isPtr_iff]; omega), hto]
    exact e f (by omega)

/-- A name of at most 253 characters of a message of `len` bytes is copied in `len + 255` steps. -/
theorem copy_ends {mem : Nat → Byte} {len p k : Nat} {ls : List (List Byte)} (h : Denotes mem len p ls k) (hr : Spec.RfcName ls)
    (hs : HostsLoop.Spec.Simple ls) {fuel : Nat} (hf : len + 255 ≤ fuel) : copyLabel mem fuel p = some (wire ls) := by
  obtain ⟨n, hn, e⟩ := copyLabel_steps h (fun l hl c hc => ((hr.1 l hl).2.2 c hc).2) hs
  have h1 := steps_bound hn
  have h2 := wire_length_le (ls := ls)
  have h3 := hr.2
  exact e fuel (by omega)

end Verif.Name
