import Verif.Spec.Logs
/-! C89: the log and its rotation. -/

namespace Verif.Logs

theorem freeNumber_some {old : Nat → Slot} {max n k : Nat} (h : freeNumber old max n = some k) :
    n < k ∧ k ≤ max ∧ readable (old k) = false := by
  fun_induction freeNumber old max n with
  | case1 => cases h
  | case2 n h1 h2 ih => obtain ⟨a, b, c⟩ := ih h; exact ⟨by omega, b, c⟩
  | case3 n h1 h2 =>
    cases h
    exact ⟨by omega, by omega, by simpa using h2⟩

theorem freeNumber_none {old : Nat → Slot} {max n : Nat} (h : freeNumber old max n = none) :
    ∀ k, n < k → k ≤ max → readable (old k) = true := by
  fun_induction freeNumber old max n with
  | case1 n h1 => intro k h2 h3; omega
  | case2 n h1 h2 ih =>
    intro k h3 h4
    by_cases hk : k = n + 1
    · rw [hk]; exact h2
    · exact ih h k (by omega) h4
  | case3 => cases h

/-- C89: whatever the system does, printing is defined, and the old files in order followed by the present one hold
what was there and all messages, in order. -/
def LogComplete : Prop := ∀ (cfg : Cfg) (content : List Byte) (old : Nat → Slot) (ms : List (Io × List Byte)), 0 < cfg.threshold →
  ∃ st files, run cfg (init content old) ms = some st ∧ Added old st.old 0 files ∧
    (files.map (·.2)).flatten ++ st.cur = content ++ (ms.map (·.2)).flatten

/-- C89 is false: if the file cannot be renamed (or opened again), the closed file is printed to. -/
theorem log_complete_false : ¬ LogComplete := by
  intro h
  obtain ⟨st, files, h1, -⟩ := h ⟨1, 5⟩ [65] (fun _ => .absent) [(⟨false, true⟩, [66])] (by decide)
  have : (run ⟨1, 5⟩ (init [65] (fun _ => .absent)) [(⟨false, true⟩, [66])]).isNone = true := by decide +kernel
  rw [h1] at this
  cases this

/-- C89 is false also if the system does what it is asked for: a file that exists and cannot be read is replaced. -/
theorem unreadable_lost : ∃ st, run ⟨1, 5⟩ (init [65] (fun k => if k = 1 then .file [90] false else .absent)) [(⟨true, true⟩, [66])] = some st ∧
    st.old 1 = .file [65] true := by
  have : (run ⟨1, 5⟩ (init [65] (fun k => if k = 1 then .file [90] false else .absent)) [(⟨true, true⟩, [66])]).map (fun st => st.old 1) =
      some (.file [65] true) := by decide +kernel
  rw [Option.map_eq_some_iff] at this
  exact this

theorem run_inv (cfg : Cfg) (hthr : 0 < cfg.threshold) (ms : List (Io × List Byte)) (st : State) (hlen : st.len = st.cur.length) (hio : ∀ m ∈ ms, m.1.rename = true ∧ m.1.reopen = true)
    (hfree : ∃ k, st.number + ms.length < k ∧ k ≤ 10 ^ cfg.digits - 1 ∧ ∀ j, k - ms.length ≤ j → j ≤ k → readable (st.old j) = false) :
    ∃ st' files, run cfg st ms = some st' ∧ Added st.old st'.old st.number files ∧ st'.len = st'.cur.length ∧
      (files.map (·.2)).flatten ++ st'.cur = st.cur ++ (ms.map (·.2)).flatten ∧ (∀ f ∈ files, cfg.threshold ≤ f.2.length) ∧
      (files.length ≤ ms.length) ∧ (∀ m ∈ ms.getLast?, st'.cur.length < cfg.threshold + m.2.length) := by
  induction ms generalizing st with
  | nil => exact ⟨st, [], rfl, ⟨by simp, by simp, by simp⟩, hlen, by simp, by simp, by simp, by simp⟩
  | cons m ms ih =>
    obtain ⟨io, m⟩ := m
    obtain ⟨k, hk1, hk2, hk3⟩ := hfree
    rw [List.length_cons] at hk1
    have hio' : ∀ m ∈ ms, m.1.rename = true ∧ m.1.reopen = true := fun x hx => hio x (by simp [hx])
    have hlast : ∀ st' : State, (∀ x ∈ ms.getLast?, st'.cur.length < cfg.threshold + x.2.length) →
        (ms = [] → st'.cur.length < cfg.threshold + m.length) → ∀ x ∈ ((io, m) :: ms).getLast?, st'.cur.length < cfg.threshold + x.2.length := by
      intro st' h1 h2 x hx
      cases ms with
      | nil => simp at hx; subst hx; exact h2 rfl
      | cons y ys => rw [List.getLast?_cons_cons] at hx; exact h1 x hx
    unfold run print checkLength
    by_cases hl : st.len < cfg.threshold
    · rw [if_pos hl]
      dsimp only
      obtain ⟨st', files, h1, h2, h3, h4, h5, h6, h7⟩ := ih { st with cur := st.cur ++ m, len := st.len + m.length }
        (by simp [hlen]) hio' ⟨k, by show st.number + ms.length < k; omega, hk2, fun j hj1 hj2 => hk3 j (by simp; omega) hj2⟩
      refine ⟨st', files, h1, h2, h3, by rw [h4]; simp, h5, by simp; omega, hlast st' h7 ?_⟩
      intro he
      subst he
      cases h1
      simp
      omega
    · rw [if_neg hl]
      cases hf : freeNumber st.old (10 ^ cfg.digits - 1) st.number with
      | none =>
        have := freeNumber_none hf k (by omega) hk2
        rw [hk3 k (by simp) (Nat.le_refl _)] at this
        cases this
      | some n =>
        obtain ⟨g1, g2, g3⟩ := freeNumber_some hf
        obtain ⟨r1, r2⟩ := hio (io, m) (by simp)
        dsimp only at r1 r2
        simp only [r1, r2, Bool.and_self, if_true]
        -- the number found is not behind the free ones
        have hn : n ≤ k - (ms.length + 1) := by
          refine Nat.le_of_not_lt (fun hh => ?_)
          have hmin : ∀ j, st.number < j → j < n → readable (st.old j) = true := by
            clear hh g1 g2 g3
            have key : ∀ (max a : Nat), freeNumber st.old max a = some n → ∀ j, a < j → j < n → readable (st.old j) = true := by
              intro max a
              fun_induction freeNumber st.old max a with
              | case1 => intro h; cases h
              | case2 a h1 h2 ih =>
                intro h j h3 h4
                by_cases hj : j = a + 1
                · rw [hj]; exact h2
                · exact ih h j (by omega) h4
              | case3 a h1 h2 => intro h j h3 h4; cases h; omega
            exact key _ _ hf
          have := hmin (k - (ms.length + 1)) (by omega) hh
          rw [hk3 _ (by simp) (by omega)] at this
          cases this
        obtain ⟨st', files, h1, h2, h3, h4, h5, h6, h7⟩ := ih
          ⟨[] ++ m, fun k => if k = n then .file st.cur true else st.old k, 0 + m.length, n⟩ (by simp) hio'
          ⟨k, by show n + ms.length < k; omega, hk2, fun j hj1 hj2 => by
            show readable (if j = n then _ else st.old j) = false
            rw [if_neg (by omega)]
            exact hk3 j (by simp; omega) hj2⟩
        refine ⟨st', (n, st.cur) :: files, h1, ?_, h3, ?_, ?_, ?_, hlast st' h7 ?_⟩
        · obtain ⟨a1, a2, a3⟩ := h2
          have hnf : n ∉ files.map (·.1) := by
            intro hm
            obtain ⟨f, hf1, hf2⟩ := List.mem_map.1 hm
            have := (a2 f hf1).1
            dsimp only at this
            omega
          refine ⟨?_, ?_, ?_⟩
          · rw [List.map_cons, List.pairwise_cons]
            refine ⟨fun x hx => ?_, a1⟩
            obtain ⟨f, hf1, rfl⟩ := List.mem_map.1 hx
            exact (a2 f hf1).1
          · intro f hfm
            rcases List.mem_cons.1 hfm with rfl | hfm
            · refine ⟨g1, ?_, ?_⟩
              · show st'.old n = _
                rw [a3 n hnf]
                simp
              · intro c hc
                rw [hc] at g3
                cases g3
            · obtain ⟨b1, b2, b3⟩ := a2 f hfm
              dsimp only at b1 b3
              refine ⟨by omega, b2, fun c => ?_⟩
              have := b3 c
              rwa [if_neg (by omega)] at this
          · intro j hj
            rw [List.map_cons, List.mem_cons, not_or] at hj
            rw [a3 j hj.2]
            exact if_neg hj.1
        · rw [List.map_cons, List.flatten_cons, List.append_assoc, h4]
          simp
        · intro f hfm
          rcases List.mem_cons.1 hfm with rfl | hfm
          · show cfg.threshold ≤ st.cur.length
            omega
          · exact h5 f hfm
        · simp; omega
        · intro he
          subst he
          cases h1
          simp
          omega

/-- C89, proved part: if renaming and opening work, and there are as many free numbers in a row as messages (with room
for them in the name), nothing is lost: the files made, in the order of their numbers, followed by the log file hold
what was in the log file and all messages, in order; files there already are left alone (those the program can read);
a file is put away only when it is as long as asked for, and before the last message the log file was shorter. -/
theorem log_complete_partial (cfg : Cfg) (hthr : 0 < cfg.threshold) (content : List Byte) (old : Nat → Slot) (ms : List (Io × List Byte))
    (hio : ∀ m ∈ ms, m.1.rename = true ∧ m.1.reopen = true) (first : Nat) (h1 : 0 < first) (h2 : first + ms.length ≤ 10 ^ cfg.digits - 1)
    (hfree : ∀ j, first ≤ j → j ≤ first + ms.length → ∀ c, old j ≠ .file c true) :
    ∃ st files, run cfg (init content old) ms = some st ∧ Added old st.old 0 files ∧
      (files.map (·.2)).flatten ++ st.cur = content ++ (ms.map (·.2)).flatten ∧ (∀ f ∈ files, LongEnough cfg.threshold f.2) ∧
      (∀ m ∈ ms.getLast?, st.cur.length < cfg.threshold + m.2.length) := by
  obtain ⟨st, files, a1, a2, -, a3, a4, -, a5⟩ := run_inv cfg hthr ms (init content old) rfl hio
    ⟨first + ms.length, by show 0 + ms.length < _; omega, h2, fun j hj1 hj2 => by
      show readable (old j) = false
      cases ho : old j with
      | absent => rfl
      | file c r =>
        cases r with
        | false => rfl
        | true => exact absurd ho (hfree j (by omega) hj2 c)⟩
  exact ⟨st, files, a1, a2, a3, a4, a5⟩

/-- Nothing is ever lost of files the program can read, also without free numbers in a row. -/
example : (run ⟨3, 5⟩ (init [65, 66] (fun k => if k = 2 then .file [90] true else .absent))
    [(⟨true, true⟩, [67]), (⟨true, true⟩, [68]), (⟨true, true⟩, [69, 70, 71]), (⟨true, true⟩, [72])]).map
      (fun st => (st.cur, [1, 2, 3, 4].map st.old)) =
    some ([72], [.file [65, 66, 67] true, .file [90] true, .file [68, 69, 70, 71] true, .absent]) := by decide +kernel

end Verif.Logs
