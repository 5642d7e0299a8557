import Verif.Spec.TcpStream
import Verif.Lemmas.IpText
import Verif.Lemmas.Byte
/-! Lemmas on reading from a stream. -/

namespace Verif.TcpStream

theorem noEmpty_tail {x : Ev} {l : List Ev} (h : NoEmpty (x :: l)) : NoEmpty l := fun hm => h (List.mem_cons_of_mem _ hm)

theorem noEmpty_data {b : List Byte} {l : List Ev} (h : NoEmpty (.data b :: l)) : b ≠ [] := fun hb => h (by simp [hb])

theorem noEmpty_drop {b : List Byte} {l : List Ev} {n : Nat} (h : NoEmpty l) (hn : n < b.length) : NoEmpty (.data (b.drop n) :: l) := by
  intro hm
  rcases List.mem_cons.mp hm with h1 | h1
  · injection h1 with h1
    have := congrArg List.length h1
    rw [List.length_drop, List.length_nil] at this
    omega
  · exact h h1

theorem errnos_tail {x : Ev} {l : List Ev} (h : Errnos (x :: l)) : Errnos l :=
  fun e he => h e (he.imp (List.mem_cons_of_mem _) (List.mem_cons_of_mem _))

/-- Reading when there is something to read. -/
theorem recvWrapper_bytes (l : List Ev) (n : Nat) (hn : 0 < n) (hl : NoEmpty l) (hs : bytesOf l ≠ []) :
    ∃ b l', recvWrapper l n = (b.length, b, l') ∧ b ≠ [] ∧ b.length ≤ n ∧ bytesOf l = b ++ bytesOf l' ∧ NoEmpty l' ∧
      (InOne l n → b.length = n ∧ l' = after l n) ∧ lastPiece l n = (if n ≤ b.length then n else lastPiece l' (n - b.length)) ∧ (Errnos l → Errnos l') := by
  induction l with
  | nil => simp [bytesOf] at hs
  | cons x l ih =>
    cases x with
    | again =>
      obtain ⟨b, l', h1, h2, h3, h4, h5, h6, h7, h8⟩ := ih (noEmpty_tail hl) hs
      exact ⟨b, l', h1, h2, h3, h4, h5, h6, h7, fun h => h8 (errnos_tail h)⟩
    | late e => simp [bytesOf] at hs
    | fail e => simp [bytesOf] at hs
    | closed => simp [bytesOf] at hs
    | data d =>
      have hd := noEmpty_data hl
      have hd' : 0 < d.length := List.length_pos_iff.mpr hd
      by_cases hlen : d.length ≤ n
      · refine ⟨d, l, by simp [recvWrapper, recv, hlen], hd, hlen, rfl, noEmpty_tail hl, fun h => ?_, by rw [lastPiece], errnos_tail⟩
        simp only [InOne] at h
        exact ⟨by omega, by rw [after, if_neg (by omega)]⟩
      · have hlen' : n < d.length := by omega
        refine ⟨d.take n, .data (d.drop n) :: l, ?_, ?_, ?_, ?_, noEmpty_drop (noEmpty_tail hl) hlen', fun _ => ?_, ?_, fun h e he => h e ?_⟩
        · simp [recvWrapper, recv, hlen]
        · intro h0
          have := congrArg List.length h0
          rw [List.length_take, List.length_nil] at this; omega
        · rw [List.length_take]; omega
        · simp only [bytesOf]; rw [← List.append_assoc, List.take_append_drop]
        · rw [List.length_take, after, if_pos hlen']; exact ⟨by omega, rfl⟩
        · rw [List.length_take, Nat.min_eq_left (Nat.le_of_lt hlen'), lastPiece, if_pos (Nat.le_of_lt hlen'), if_pos (Nat.le_refl n)]
        · simpa using he

/-- Reading when there is nothing to read gives nothing; the number is 0 or minus an error number. -/
theorem recvWrapper_none (l : List Ev) (n : Nat) (hl : NoEmpty l) (he : Errnos l) (hs : bytesOf l = []) :
    ∃ s l', recvWrapper l n = (s, [], l') ∧ s ≤ 0 ∧ -4096 < s ∧ (s = 0 → bytesOf l' = []) := by
  induction l with
  | nil => exact ⟨-11, [], by simp [recvWrapper, recv], by omega, by omega, fun _ => rfl⟩
  | cons x l ih =>
    have hin : ∀ {y}, y ∈ l → y ∈ x :: l := fun h => List.mem_cons_of_mem _ h
    have he' : Errnos l := fun e h => he e (h.imp hin hin)
    cases x with
    | again => simpa only [recvWrapper] using ih (noEmpty_tail hl) he' hs
    | late e =>
      have := he e (Or.inr (by simp))
      exact ⟨-(e : Int), l, by simp [recvWrapper, recv], by omega, by omega, fun _ => by omega⟩
    | fail e =>
      have := he e (Or.inl (by simp))
      exact ⟨-(e : Int), l, by simp [recvWrapper, recv], by omega, by omega, fun _ => by omega⟩
    | closed => exact ⟨0, .closed :: l, by simp [recvWrapper, recv], by omega, by omega, fun _ => rfl⟩
    | data d =>
      exact absurd (List.append_eq_nil_iff.mp hs).1 (noEmpty_data hl)

theorem recvWrapper_zero (l : List Ev) (hl : NoEmpty l) (he : Errnos l) :
    ∃ s l', recvWrapper l 0 = (s, [], l') ∧ s ≤ 0 ∧ -4096 < s ∧ (s = 0 → bytesOf l' = bytesOf l) := by
  by_cases hs : bytesOf l = []
  · rw [hs]; exact recvWrapper_none l 0 hl he hs
  · induction l with
    | nil => simp [bytesOf] at hs
    | cons x l ih =>
      have hin : ∀ {y}, y ∈ l → y ∈ x :: l := fun h => List.mem_cons_of_mem _ h
      have he' : Errnos l := fun e h => he e (h.imp hin hin)
      cases x with
      | again => simpa only [recvWrapper, bytesOf] using ih (noEmpty_tail hl) he' hs
      | late e => simp [bytesOf] at hs
      | fail e => simp [bytesOf] at hs
      | closed => simp [bytesOf] at hs
      | data d =>
        have hd := noEmpty_data hl
        refine ⟨0, .data d :: l, ?_, by omega, by omega, fun _ => rfl⟩
        simp [recvWrapper, recv, hd]

/-- The whole message arrives. -/
theorem bodyLoop_whole (k : Nat) (l : List Ev) (n : Nat) (acc m rest : List Byte) (hl : NoEmpty l) (hs : bytesOf l = m ++ rest) (hm : m.length = n)
    (hn : 0 < n) (hk : n ≤ k) (h16 : n < 65536) :
    ∃ l', bodyLoop k l n acc = (((lastPiece l n : Nat) : Int), 0, acc ++ m, l') ∧ bytesOf l' = rest ∧ NoEmpty l' := by
  induction k generalizing l n acc m with
  | zero => omega
  | succ k ih =>
    have hne : bytesOf l ≠ [] := by
      intro h
      rw [h] at hs
      have := congrArg List.length hs
      simp only [List.length_nil, List.length_append] at this; omega
    obtain ⟨b, l', h1, h2, h3, h4, h5, -, h7, -⟩ := recvWrapper_bytes l n hn hl hne
    have hb : 0 < b.length := List.length_pos_iff.mpr h2
    rw [bodyLoop, h1]
    dsimp only
    have hmb : m = b ++ m.drop b.length ∧ bytesOf l' = m.drop b.length ++ rest := by
      have h8 : b ++ bytesOf l' = m ++ rest := by rw [← h4, hs]
      have h9 := congrArg (List.take b.length) h8
      rw [List.take_left, List.take_append_of_le_length (by omega)] at h9
      have h10 := congrArg (List.drop b.length) h8
      rw [List.drop_left, List.drop_append_of_le_length (by omega)] at h10
      refine ⟨?_, h10⟩
      have h11 := List.take_append_drop b.length m
      rw [← h9] at h11
      exact h11.symm
    have hmod : (((n : Int) - (b.length : Int)) % 65536).toNat = n - b.length := by omega
    rw [hmod, h7]
    by_cases hd : n ≤ b.length
    · rw [if_neg (by omega), if_pos hd]
      have hd0 : m.drop b.length = [] := List.drop_eq_nil_of_le (by omega)
      rw [hd0] at hmb
      refine ⟨l', ?_, by simpa using hmb.2, h5⟩
      rw [show m = b by simpa using hmb.1, show n - b.length = 0 by omega, show (b.length : Int) = (n : Int) by omega]
    · rw [if_pos ⟨by omega, by omega⟩, if_neg hd]
      obtain ⟨l'', h8, h9, h10⟩ := ih l' (n - b.length) (acc ++ b) (m.drop b.length) h5 hmb.2 (by rw [List.length_drop, hm]) (by omega) (by omega) (by omega)
      refine ⟨l'', ?_, h9, h10⟩
      rw [h8, List.append_assoc, ← hmb.1]

/-- A part of the message is missing. -/
theorem bodyLoop_bad (k : Nat) (l : List Ev) (n : Nat) (acc : List Byte) (hl : NoEmpty l) (he : Errnos l) (hs : (bytesOf l).length < n)
    (hk : n ≤ k) (h16 : n < 60000) : (bodyLoop k l n acc).2.1 ≠ 0 := by
  induction k generalizing l n acc with
  | zero => omega
  | succ k ih =>
    rw [bodyLoop]
    by_cases hne : bytesOf l = []
    · obtain ⟨s, l', h1, h2, h3, -⟩ := recvWrapper_none l n hl he hne
      rw [h1]
      dsimp only
      rw [if_neg (by omega)]
      dsimp only
      omega
    · obtain ⟨b, l', h1, h2, h3, h4, h5, -, -, h8⟩ := recvWrapper_bytes l n (by omega) hl hne
      have hb : 0 < b.length := List.length_pos_iff.mpr h2
      have hlen := congrArg List.length h4
      rw [List.length_append] at hlen
      rw [h1]
      dsimp only
      have hmod : (((n : Int) - (b.length : Int)) % 65536).toNat = n - b.length := by omega
      rw [hmod, if_pos ⟨by omega, by omega⟩]
      exact ih l' _ _ h5 (h8 he) (by omega) (by omega) (by omega)

/-! Reading without waiting. -/

theorem atHand_after {l : List Ev} {n m : Nat} (h : AtHand l (n + m)) (h1 : InOne l n) (hn : 0 < n) : AtHand (after l n) m := by
  cases l with
  | nil => simp [InOne] at h1
  | cons x l =>
    cases x with
    | data b =>
      simp only [InOne] at h1
      simp only [AtHand] at h
      rw [after]
      split
      · rename_i hlt
        simp only [AtHand, List.length_drop]
        rcases h with h | h
        · left; omega
        · right
          rw [show m - (b.length - n) = n + m - b.length by omega]; exact h
      · rename_i hge
        rcases h with h | h
        · rw [show m = 0 by omega]
          cases l with
          | nil => rfl
          | cons y l => cases y <;> simp [AtHand]
        · rwa [show n + m - b.length = m by omega] at h
    | again => simp only [AtHand] at h; omega
    | late e => simp [InOne] at h1
    | fail e => simp [InOne] at h1
    | closed => simp [InOne] at h1

theorem atHand_one {l : List Ev} {n : Nat} (hl : NoEmpty l) (h : AtHand l n) (hn : 0 < n) : InOne l 1 := by
  cases l with
  | nil => simp only [AtHand] at h; omega
  | cons x l =>
    cases x with
    | data b => exact List.length_pos_iff.mpr (noEmpty_data hl)
    | again => simp only [AtHand] at h; omega
    | late e => simp only [AtHand] at h; omega
    | fail e => simp only [AtHand] at h; omega
    | closed => simp only [AtHand] at h; omega

theorem clear_atHand (k : Nat) : ∀ (l : List Ev) (n : Nat), NoEmpty l → AtHand l n → n ≤ k → bytesOf (clear k l n) = (bytesOf l).drop n := by
  induction k with
  | zero =>
    intro l n _ _ hk
    rw [show n = 0 by omega]; rfl
  | succ k ih =>
    intro l n hl h hk
    rw [clear]
    by_cases hn : n = 0
    · rw [if_pos hn, hn]; rfl
    · rw [if_neg hn]
      cases l with
      | nil => simp only [AtHand] at h; omega
      | cons x l =>
        cases x with
        | again => simp only [AtHand] at h; omega
        | late e => simp only [AtHand] at h; omega
        | fail e => simp only [AtHand] at h; omega
        | closed => simp only [AtHand] at h; omega
        | data b =>
          have hb := noEmpty_data hl
          have hb' : 0 < b.length := List.length_pos_iff.mpr hb
          simp only [AtHand] at h
          simp only [recv]
          by_cases hlen : b.length ≤ min 128 n
          · rw [if_pos hlen]
            dsimp only
            rw [if_neg hb]
            have hle : AtHand l (n - b.length) := by
              rcases h with h | h
              · rw [show n - b.length = 0 by omega]
                cases l with
                | nil => rfl
                | cons y l => cases y <;> simp [AtHand]
              · exact h
            rw [ih l _ (noEmpty_tail hl) hle (by omega), bytesOf, List.drop_append, List.drop_eq_nil_of_le (show b.length ≤ n by omega), List.nil_append]
          · rw [if_neg hlen]
            dsimp only
            have hmin : 0 < min 128 n := by omega
            rw [if_neg (fun h0 => by have := congrArg List.length h0; rw [List.length_take, List.length_nil] at this; omega), List.length_take,
              Nat.min_eq_left (show min 128 n ≤ b.length by omega)]
            rw [ih _ _ (noEmpty_drop (noEmpty_tail hl) (by omega)) ?_ (by omega)]
            · simp only [bytesOf]
              rw [← List.drop_append_of_le_length (by omega), List.drop_drop]
              congr 1; omega
            · simp only [AtHand, List.length_drop]
              rcases h with h | h
              · left; omega
              · right; rw [show n - min 128 n - (b.length - min 128 n) = n - b.length by omega]; exact h

/-! Sending. -/

theorem sendWrapper_all (l : List SendEv) (m : List Byte) {n : Nat} (h : AllOrNothing l n) (hm : m.length ≤ n) (he : SendErrnos l) :
    (((sendWrapper l m).1 = m.length ∧ (sendWrapper l m).2.1 = m) ∨ ((sendWrapper l m).1 < 0 ∧ (sendWrapper l m).2.1 = [])) ∧
      ∀ x ∈ (sendWrapper l m).2.2, x ∈ l := by
  induction l with
  | nil => exact ⟨Or.inr ⟨by simp [sendWrapper], rfl⟩, fun x hx => hx⟩
  | cons x l ih =>
    have h' : AllOrNothing l n := fun k e r hk => h k e r (List.mem_cons_of_mem _ hk)
    have he' : SendErrnos l := fun e r hk => he e r (List.mem_cons_of_mem _ hk)
    cases x with
    | took k e r =>
      have hk := h k e r (by simp)
      rw [sendWrapper, if_pos (by omega)]
      exact ⟨Or.inl ⟨rfl, rfl⟩, fun x hx => List.mem_cons_of_mem _ hx⟩
    | fail e r =>
      rw [sendWrapper]
      split
      · have := he e r (by simp)
        exact ⟨Or.inr ⟨by dsimp only; omega, rfl⟩, fun x hx => List.mem_cons_of_mem _ hx⟩
      · exact ⟨(ih h' he').1, fun x hx => List.mem_cons_of_mem _ ((ih h' he').2 x hx)⟩

/-! The length of the text of an address. -/

theorem dec_length (a : Byte) : (IpText.dec a.toNat).length ≤ 3 := by
  have : a.toNat < 256 := UInt8.toNat_lt a
  unfold IpText.dec
  split
  · simp
  · unfold IpText.dec
    split
    · simp
    · unfold IpText.dec
      rw [if_pos (by omega)]
      simp

theorem hex_length (n : Nat) (h : n < 65536) : (IpText.hex n).length ≤ 4 := by
  unfold IpText.hex
  split
  · simp
  · unfold IpText.hex
    split
    · simp
    · unfold IpText.hex
      split
      · simp
      · unfold IpText.hex
        rw [if_pos (by omega)]
        simp

theorem printLoop_length (z : Option Nat) (n : Nat) (l : List Nat) (hl : ∀ v ∈ l, v < 65536) : ∀ i k, (IpText.printLoop z n i k l).length ≤ 5 * l.length := by
  induction l with
  | nil => intro i k; cases k <;> simp [IpText.printLoop]
  | cons v l ih =>
    intro i k
    have ih := ih (fun v hv => hl v (List.mem_cons_of_mem _ hv))
    cases k with
    | succ k =>
      rw [IpText.printLoop, List.length_cons]
      have := ih (i + 1) k; omega
    | zero =>
      rw [IpText.printLoop, List.length_cons]
      split
      · have := ih (i + 1) (n - 1)
        rw [List.length_append, List.length_cons]
        split <;> simp <;> omega
      · have := ih (i + 1) 0
        have h4 := hex_length v (hl v (by simp))
        rw [List.length_append, List.length_append, List.length_take]
        split <;> simp <;> omega

theorem text_length (t : Target) (h : t.ip.length = 4 ∨ t.ip.length = 16) : t.text.length ≤ 40 := by
  unfold Target.text
  split
  · rename_i a b c d _
    have := dec_length a
    have := dec_length b
    have := dec_length c
    have := dec_length d
    simp only [IpText.v4ToAsc, List.length_append, List.length_cons]
    omega
  · rename_i h4
    have h16 : t.ip.length = 16 := by
      rcases h with h | h
      · match hip : t.ip, h with
        | [a, b, c, d], _ => exact absurd hip (h4 a b c d)
      · exact h
    unfold IpText.v6ToAsc
    have h8 := IpText.groups_length t.ip 8 (by omega)
    have := printLoop_length (IpText.runLoop 0 none 0 none 0 (IpText.groups t.ip)).1 (IpText.runLoop 0 none 0 none 0 (IpText.groups t.ip)).2
      (IpText.groups t.ip) (IpText.groups_lt t.ip) 0 0
    dsimp only
    omega

end Verif.TcpStream
