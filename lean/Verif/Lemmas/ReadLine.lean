import Verif.Model.ReadLine
import Verif.Spec.ReadLine
import Verif.Lemmas.Byte
/-! Lemmas about reading lines. -/

namespace Verif.ReadLine

theorem isSpace_iff (c : Byte) : isSpace c = true ↔ c ∈ whites :=
  forall_byte (fun c => isSpace c = true ↔ c ∈ whites) (by decide +kernel) c

theorem takeLine_lf (n : Nat) (s rest : List Byte) (h : (10 : Byte) ∉ s) (hl : s.length + 1 ≤ n) :
    takeLine n (s ++ 10 :: rest) = (s ++ [10], rest) := by
  induction s generalizing n with
  | nil =>
    cases n with
    | zero => simp at hl
    | succ n => simp [takeLine]
  | cons c s ih =>
    simp only [List.mem_cons, not_or] at h
    cases n with
    | zero => simp at hl
    | succ n =>
      simp only [List.length_cons] at hl
      simp [takeLine, Ne.symm h.1, ih n h.2 (by omega)]

theorem takeLine_end (n : Nat) (s : List Byte) (h : (10 : Byte) ∉ s) (hl : s.length ≤ n) : takeLine n s = (s, []) := by
  induction s generalizing n with
  | nil => cases n <;> rfl
  | cons c s ih =>
    simp only [List.mem_cons, not_or] at h
    cases n with
    | zero => simp at hl
    | succ n =>
      simp only [List.length_cons] at hl
      simp [takeLine, Ne.symm h.1, ih n h.2 (by omega)]

theorem takeLine_full (n : Nat) (s rest : List Byte) (h : (10 : Byte) ∉ s) (hl : s.length = n) :
    takeLine n (s ++ rest) = (s, rest) := by
  induction s generalizing n with
  | nil =>
    simp at hl
    subst hl
    rfl
  | cons c s ih =>
    simp only [List.mem_cons, not_or] at h
    simp only [List.length_cons] at hl
    subst hl
    simp [takeLine, Ne.symm h.1, ih s.length h.2 rfl]

theorem takeWhile_all {s : List Byte} {a : Byte} (h : a ∉ s) : s.takeWhile (· != a) = s := by
  induction s with
  | nil => rfl
  | cons c s ih =>
    simp only [List.mem_cons, not_or] at h
    simp [Ne.symm h.1, ih h.2]

theorem takeWhile_ne (s r : List Byte) (a : Byte) (h : a ∉ s) : (s ++ a :: r).takeWhile (· != a) = s := by
  induction s with
  | nil => simp
  | cons c s ih =>
    simp only [List.mem_cons, not_or] at h
    simp [Ne.symm h.1, ih h.2]

/-! ### White space -/

theorem dropFoot_spec (s : List Byte) : ∃ b, s = dropFoot s ++ b ∧ (∀ c ∈ b, c ∈ whites) ∧
    ∀ c, (dropFoot s).getLast? = some c → c ∉ whites := by
  have hs := List.takeWhile_append_dropWhile (p := isSpace) (l := s.reverse)
  refine ⟨(s.reverse.takeWhile isSpace).reverse, ?_, ?_, ?_⟩
  · have := congrArg List.reverse hs
    simp only [List.reverse_append, List.reverse_reverse] at this
    exact this.symm
  · intro c hc
    have := List.all_takeWhile (p := isSpace) (l := s.reverse)
    rw [List.all_eq_true] at this
    exact (isSpace_iff c).1 (this c (by simpa using hc))
  · intro c hc hw
    rw [dropFoot, List.getLast?_reverse] at hc
    have := List.head?_dropWhile_not isSpace s.reverse
    rw [hc] at this
    dsimp only at this
    rw [(isSpace_iff c).2 hw] at this
    simp at this

theorem dropFoot_concat (l : List Byte) (c : Byte) : dropFoot (l ++ [c]) = if isSpace c then dropFoot l else l ++ [c] := by
  simp only [dropFoot, List.reverse_append, List.reverse_singleton, List.singleton_append, List.dropWhile_cons]
  split <;> simp

theorem dropFoot_fix {s : List Byte} (h : ∀ c, s.getLast? = some c → c ∉ whites) : dropFoot s = s := by
  rcases List.eq_nil_or_concat s with rfl | ⟨l, c, rfl⟩
  · rfl
  · rw [List.concat_eq_append] at *
    rw [dropFoot_concat, if_neg (fun e => h c (by simp) ((isSpace_iff c).1 e))]

theorem dropFoot_idem (s : List Byte) : dropFoot (dropFoot s) = dropFoot s := by
  obtain ⟨b, -, -, h⟩ := dropFoot_spec s
  exact dropFoot_fix h

theorem foot_dropFoot (s : List Byte) : eliminateFootSpace (dropFoot s) = some (dropFoot s) := by
  unfold eliminateFootSpace
  split
  · rename_i h; rw [h]
  · rename_i h
    rw [dropFoot_idem, if_neg]
    intro hall
    rw [List.all_eq_true] at hall
    obtain ⟨b, -, -, hl⟩ := dropFoot_spec s
    cases hg : (dropFoot s).getLast? with
    | none => rw [List.getLast?_eq_none_iff] at hg; exact h hg
    | some c => exact hl c hg ((isSpace_iff c).1 (hall c (List.mem_of_getLast? hg)))

theorem foot_of_not_all {s : List Byte} (h : s ≠ []) (hw : ∃ c ∈ s, c ∉ whites) : eliminateFootSpace s = some (dropFoot s) := by
  unfold eliminateFootSpace
  rw [if_neg h, if_neg]
  intro hall
  rw [List.all_eq_true] at hall
  obtain ⟨c, h1, h2⟩ := hw
  exact h2 ((isSpace_iff c).1 (hall c h1))

/-- White space cut off at both ends, as the code does it. -/
def trim (s : List Byte) : List Byte := eliminateHeadSpace (dropFoot s)

theorem bare_trim (s : List Byte) : Bare s (trim s) := by
  obtain ⟨b, h1, h2, h3⟩ := dropFoot_spec s
  have hs := List.takeWhile_append_dropWhile (p := isSpace) (l := dropFoot s)
  refine ⟨(dropFoot s).takeWhile isSpace, b, ?_, ?_, h2, ?_, ?_⟩
  · unfold trim eliminateHeadSpace
    rw [hs]
    exact h1
  · intro c hc
    have := List.all_takeWhile (p := isSpace) (l := dropFoot s)
    rw [List.all_eq_true] at this
    exact (isSpace_iff c).1 (this c hc)
  · intro c hc hw
    have := List.head?_dropWhile_not isSpace (dropFoot s)
    unfold trim eliminateHeadSpace at hc
    rw [hc] at this
    dsimp only at this
    rw [(isSpace_iff c).2 hw] at this
    simp at this
  · intro c hc
    refine h3 c ?_
    rw [← hs]
    unfold trim eliminateHeadSpace at hc
    rw [List.getLast?_append, hc]
    rfl

theorem clear_no {s : List Byte} {m : Byte} (h : m ∉ s) : clearAnnotation s m = (s, false) := by
  unfold clearAnnotation
  rw [if_neg h]

theorem clear_yes {u r : List Byte} {m : Byte} (h : m ∉ u) : clearAnnotation (u ++ m :: r) m = (dropFoot u, true) := by
  unfold clearAnnotation
  rw [if_pos (by simp), takeWhile_ne _ _ _ h]

/-! ### One line -/

/-- Carriage returns stand at the end only. -/
def CrOk (s : List Byte) : Prop := (13 : Byte) ∉ s.dropLast

/-- No `;` stands before the first `#`. -/
def MarkOk (s : List Byte) : Prop := ∀ u r, s = u ++ 35 :: r → (35 : Byte) ∉ u → (59 : Byte) ∉ u

/-- A line the code reads as it should. -/
structure LineOk (s : List Byte) : Prop where
  lf : (10 : Byte) ∉ s
  nul : (0 : Byte) ∉ s
  cr : CrOk s
  mark : MarkOk s

theorem split_first {s : List Byte} {a : Byte} (h : a ∈ s) : ∃ u r, s = u ++ a :: r ∧ a ∉ u := by
  induction s with
  | nil => simp at h
  | cons c s ih =>
    by_cases hc : c = a
    · exact ⟨[], s, by simp [hc], by simp⟩
    · obtain ⟨u, r, h1, h2⟩ := ih (by simpa [Ne.symm hc] using h)
      exact ⟨c :: u, r, by simp [h1], by simp [h2, Ne.symm hc]⟩

/-- The part before the comment marks. -/
theorem noComment_cases (s : List Byte) (hm : MarkOk s) :
    (∃ u r, NoComment s u ∧ (35 : Byte) ∉ u ∧ s = u ++ 35 :: r) ∨
    (∃ u r, NoComment s u ∧ (35 : Byte) ∉ s ∧ (59 : Byte) ∉ u ∧ s = u ++ 59 :: r) ∨
    (NoComment s s ∧ (35 : Byte) ∉ s ∧ (59 : Byte) ∉ s) := by
  by_cases h : (35 : Byte) ∈ s
  · obtain ⟨u, r, h1, h2⟩ := split_first h
    have h3 := hm u r h1 h2
    refine .inl ⟨u, r, ⟨fun c hc => ⟨fun e => h2 (e ▸ hc), fun e => h3 (e ▸ hc)⟩, .inr ⟨r, .inl h1⟩⟩, h2, h1⟩
  · by_cases h' : (59 : Byte) ∈ s
    · obtain ⟨u, r, h1, h2⟩ := split_first h'
      refine .inr (.inl ⟨u, r, ⟨fun c hc => ⟨fun e => h ?_, fun e => h2 (e ▸ hc)⟩, .inr ⟨r, .inr h1⟩⟩, h, h2, h1⟩)
      rw [h1, ← e]; simp [hc]
    · exact .inr (.inr ⟨⟨fun c hc => ⟨fun e => h (e ▸ hc), fun e => h' (e ▸ hc)⟩, .inl rfl⟩, h, h'⟩)

/-- What the code makes of the text of a line, ended by a line feed or by the end of the file. -/
theorem line_text (s e : List Byte) (hs : LineOk s) (he : e = [10] ∨ (e = [] ∧ ∃ c ∈ s, c ∉ whites)) :
    ∃ t, Visible s t ∧
      let a := clearAnnotation (s ++ e) 35
      let b := if a.2 then a else clearAnnotation a.1 59
      (b.2 = true ∧ ∃ x, eliminateFootSpace b.1 = some x ∧ eliminateHeadSpace x = t) ∨
      (b.2 = false ∧ ∃ x, eliminateFootSpace (eliminateCRLF (s ++ e)) = some x ∧ eliminateHeadSpace x = t) := by
  have hm35 : (35 : Byte) ∉ e := by rcases he with rfl | ⟨rfl, -⟩ <;> simp <;> decide
  have hm59 : (59 : Byte) ∉ e := by rcases he with rfl | ⟨rfl, -⟩ <;> simp <;> decide
  rcases noComment_cases s hs.mark with ⟨u, r, h1, h2, h3⟩ | ⟨u, r, h1, h2, h3, h4⟩ | ⟨h1, h2, h3⟩
  · refine ⟨trim u, ⟨u, h1, bare_trim u⟩, .inl ?_⟩
    have hc : clearAnnotation (s ++ e) 35 = (dropFoot u, true) := by
      unfold clearAnnotation
      rw [if_pos (by rw [h3]; simp), h3, List.append_assoc, List.cons_append, takeWhile_ne _ _ _ h2]
    rw [hc]
    exact ⟨rfl, dropFoot u, foot_dropFoot u, rfl⟩
  · refine ⟨trim u, ⟨u, h1, bare_trim u⟩, .inl ?_⟩
    have hc : clearAnnotation (s ++ e) 35 = (s ++ e, false) := by
      unfold clearAnnotation
      rw [if_neg (by simp [h2, hm35])]
    have hc2 : clearAnnotation (s ++ e) 59 = (dropFoot u, true) := by
      unfold clearAnnotation
      rw [if_pos (by rw [h4]; simp), h4, List.append_assoc, List.cons_append, takeWhile_ne _ _ _ h3]
    rw [hc]
    dsimp only
    rw [if_neg (by simp), hc2]
    exact ⟨rfl, dropFoot u, foot_dropFoot u, rfl⟩
  · refine ⟨trim s, ⟨s, h1, bare_trim s⟩, .inr ?_⟩
    have hc : clearAnnotation (s ++ e) 35 = (s ++ e, false) := by
      unfold clearAnnotation
      rw [if_neg (by simp [h2, hm35])]
    have hc2 : clearAnnotation (s ++ e) 59 = (s ++ e, false) := by
      unfold clearAnnotation
      rw [if_neg (by simp [h3, hm59])]
    rw [hc]
    dsimp only
    rw [if_neg (by simp), hc2]
    refine ⟨rfl, dropFoot s, ?_, rfl⟩
    by_cases h13 : (13 : Byte) ∈ s
    · -- the carriage return is the last byte
      rcases List.eq_nil_or_concat s with rfl | ⟨l, c, rfl⟩
      · simp at h13
      · rw [List.concat_eq_append] at *
        have hcr := hs.cr
        simp only [CrOk, List.dropLast_concat] at hcr
        have hc13 : c = 13 := by
          rcases List.mem_append.1 h13 with h | h
          · exact absurd h hcr
          · exact (List.mem_singleton.1 h).symm
        subst hc13
        have e1 : clearAnnotation ((l ++ [13]) ++ e) 13 = (dropFoot l, true) := by
          unfold clearAnnotation
          rw [if_pos (by simp), List.append_assoc, List.singleton_append, takeWhile_ne _ _ _ hcr]
        have e2 : (10 : Byte) ∉ dropFoot l := by
          obtain ⟨b, hb, -, -⟩ := dropFoot_spec l
          intro hm
          exact hs.lf (by rw [hb]; simp [hm])
        have e3 : eliminateCRLF ((l ++ [13]) ++ e) = dropFoot l := by
          unfold eliminateCRLF
          rw [e1]
          unfold clearAnnotation
          rw [if_neg e2]
        have e4 : dropFoot (l ++ [13]) = dropFoot l := by rw [dropFoot_concat, if_pos (by decide)]
        rw [e3, e4]
        exact foot_dropFoot l
    · rcases he with rfl | ⟨rfl, hw⟩
      · have e3 : eliminateCRLF (s ++ [10]) = dropFoot s := by
          have h13' : (13 : Byte) ∉ s ++ [10] := by
            simp only [List.mem_append, List.mem_singleton, not_or]
            exact ⟨h13, by decide⟩
          unfold eliminateCRLF
          rw [clear_no h13', clear_yes hs.lf]
        rw [e3]
        exact foot_dropFoot s
      · have e3 : eliminateCRLF (s ++ []) = s := by
          unfold eliminateCRLF
          rw [List.append_nil, clear_no h13, clear_no hs.lf]
        rw [e3]
        obtain ⟨c, hc, hcw⟩ := hw
        exact foot_of_not_all (List.ne_nil_of_mem hc) ⟨c, hc, hcw⟩

theorem fgets_lf (n : Nat) (s rest : List Byte) (hs : LineOk s) (hl : s.length + 2 ≤ n) :
    fgets n ⟨s ++ 10 :: rest, false⟩ = some (s ++ [10], ⟨rest, false⟩) := by
  unfold fgets
  rw [if_neg (by simp)]
  dsimp only
  rw [takeLine_lf _ _ _ hs.lf (by omega)]
  dsimp only
  rw [takeWhile_all (by simp [hs.nul])]
  simp

theorem fgets_last (n : Nat) (s : List Byte) (hs : LineOk s) (hne : s ≠ []) (hl : s.length + 2 ≤ n) :
    fgets n ⟨s, false⟩ = some (s, ⟨[], true⟩) := by
  unfold fgets
  dsimp only
  rw [if_neg hne, takeLine_end _ _ hs.lf (by omega)]
  dsimp only
  rw [takeWhile_all hs.nul]
  have h1 : s.length < n - 1 := by omega
  have h2 : s.getLast? ≠ some 10 := fun e => hs.lf (List.mem_of_getLast? e)
  simp [h1, h2]

theorem readLine_line (n fuel : Nat) (s rest : List Byte) (hs : LineOk s) (hl : s.length + 2 ≤ n) :
    ∃ t, Visible s t ∧ readLine n (fuel + 1) ⟨s ++ 10 :: rest, false⟩ =
      if t = [] then readLine n fuel ⟨rest, false⟩ else .done t ⟨rest, false⟩ := by
  obtain ⟨t, ht, h⟩ := line_text s [10] hs (.inl rfl)
  refine ⟨t, ht, ?_⟩
  rw [readLine, fgets_lf n s rest hs hl]
  have hr : reachedLineEnd ⟨rest, false⟩ (s ++ [10]) = true := by
    unfold reachedLineEnd; rw [List.getLast?_concat]; simp
  dsimp only at h ⊢
  rw [hr]
  rcases h with ⟨h1, x, h2, h3⟩ | ⟨h1, x, h2, h3⟩
  · rw [h1]
    simp only [if_true, h2, h3]
  · rw [h1]
    simp only [Bool.false_eq_true, if_false, if_true, h2, h3]

theorem readLine_last (n fuel : Nat) (s : List Byte) (hs : LineOk s) (hl : s.length + 2 ≤ n) (hw : ∃ c ∈ s, c ∉ whites) :
    ∃ t, Visible s t ∧ readLine n (fuel + 1) ⟨s, false⟩ =
      if t = [] then readLine n fuel ⟨[], true⟩ else .done t ⟨[], true⟩ := by
  obtain ⟨t, ht, h⟩ := line_text s [] hs (.inr ⟨rfl, hw⟩)
  refine ⟨t, ht, ?_⟩
  obtain ⟨c, hc, -⟩ := hw
  rw [readLine, fgets_last n s hs (List.ne_nil_of_mem hc) hl]
  have hr : reachedLineEnd ⟨[], true⟩ s = true := by
    unfold reachedLineEnd; split <;> simp
  rw [List.append_nil] at h
  dsimp only at h ⊢
  rw [hr]
  rcases h with ⟨h1, x, h2, h3⟩ | ⟨h1, x, h2, h3⟩
  · rw [h1]
    simp only [if_true, h2, h3]
  · rw [h1]
    simp only [Bool.false_eq_true, if_false, if_true, h2, h3]

/-! ### Long lines -/

/-- A chunk of a line without comment marks that fills the buffer. -/
theorem readLine_chunk (n fuel : Nat) (s rest : List Byte) (h0 : s ≠ []) (hlf : (10 : Byte) ∉ s) (hnul : (0 : Byte) ∉ s)
    (hcr : (13 : Byte) ∉ s) (h35 : (35 : Byte) ∉ s) (h59 : (59 : Byte) ∉ s) (hl : s.length + 1 = n) :
    readLine n (fuel + 1) ⟨s ++ rest, false⟩ = .truncated s ⟨rest, false⟩ := by
  have hf : fgets n ⟨s ++ rest, false⟩ = some (s, ⟨rest, false⟩) := by
    unfold fgets
    dsimp only
    rw [if_neg (by simp [h0]), takeLine_full _ _ _ hlf (by omega)]
    dsimp only
    rw [takeWhile_all hnul]
    have : ¬ s.length < n - 1 := by omega
    simp [this]
  have hr : reachedLineEnd ⟨rest, false⟩ s = false := by
    unfold reachedLineEnd
    split
    · rename_i c hc
      have := List.mem_of_getLast? hc
      rw [if_neg]
      rintro (rfl | rfl)
      · exact hcr this
      · exact hlf this
    · rfl
  rw [readLine, hf]
  dsimp only
  rw [hr]
  have e1 : clearAnnotation s 35 = (s, false) := by unfold clearAnnotation; rw [if_neg h35]
  have e2 : clearAnnotation s 59 = (s, false) := by unfold clearAnnotation; rw [if_neg h59]
  rw [e1]
  simp [e2]

/-- The rest of a long line is skipped in chunks of 127 bytes, if the last of them is not blank. -/
theorem skip_rest (fuel : Nat) : ∀ (s rest : List Byte), (10 : Byte) ∉ s → (0 : Byte) ∉ s → (13 : Byte) ∉ s →
    (35 : Byte) ∉ s → (59 : Byte) ∉ s → (∃ c ∈ s.drop (s.length / 127 * 127), c ∉ whites) → s.length < fuel →
    goToNextLine fuel ⟨s ++ 10 :: rest, false⟩ = some ⟨rest, false⟩ := by
  induction fuel with
  | zero => intro s rest _ _ _ _ _ _ h; simp at h
  | succ fuel ih =>
    intro s rest h1 h2 h3 h4 h5 h6 hf
    rw [goToNextLine, call]
    by_cases hl : s.length < 127
    · have hd : s.length / 127 = 0 := by omega
      rw [hd] at h6
      simp only [Nat.zero_mul, List.drop_zero] at h6
      have hok : LineOk s := ⟨h1, h2, fun h => h3 (List.dropLast_sublist _ |>.subset h), fun u r e _ => absurd (by rw [e]; simp) h4⟩
      obtain ⟨t, ⟨u, hu, hb⟩, ht⟩ := readLine_line 128 (s ++ 10 :: rest).length s rest hok (by omega)
      rw [ht]
      have hne : t ≠ [] := by
        rintro rfl
        obtain ⟨a, b, e, ha, hb', -⟩ := hb
        obtain ⟨c, hc, hcw⟩ := h6
        obtain ⟨-, hu' | ⟨r, hr | hr⟩⟩ := hu
        · subst hu'
          rw [e] at hc
          simp at hc
          rcases hc with hc | hc
          · exact hcw (ha c hc)
          · exact hcw (hb' c hc)
        · exact h4 (by rw [hr]; simp)
        · exact h5 (by rw [hr]; simp)
      rw [if_neg hne]
    · have hsp : s ++ 10 :: rest = s.take 127 ++ (s.drop 127 ++ 10 :: rest) := by
        rw [← List.append_assoc, List.take_append_drop]
      have hsub : ∀ c, c ∈ s.take 127 → c ∈ s := fun c hc => List.mem_of_mem_take hc
      have hsub2 : ∀ c, c ∈ s.drop 127 → c ∈ s := fun c hc => List.mem_of_mem_drop hc
      have hlen : (s.take 127).length = 127 := by rw [List.length_take]; omega
      have := readLine_chunk 128 (s ++ 10 :: rest).length (s.take 127) (s.drop 127 ++ 10 :: rest)
        (by intro e; rw [e] at hlen; simp at hlen) (fun h => h1 (hsub _ h)) (fun h => h2 (hsub _ h)) (fun h => h3 (hsub _ h))
        (fun h => h4 (hsub _ h)) (fun h => h5 (hsub _ h)) (by omega)
      rw [← hsp] at this
      dsimp only at this ⊢
      rw [this]
      dsimp only
      refine ih _ _ (fun h => h1 (hsub2 _ h)) (fun h => h2 (hsub2 _ h)) (fun h => h3 (hsub2 _ h)) (fun h => h4 (hsub2 _ h))
        (fun h => h5 (hsub2 _ h)) ?_ (by rw [List.length_drop]; omega)
      rw [List.drop_drop, List.length_drop]
      have e : 127 + (s.length - 127) / 127 * 127 = s.length / 127 * 127 := by omega
      rw [e]
      exact h6

/-- The rest of a line with a comment is read away. -/
theorem blackHole_rest (fuel : Nat) : ∀ (s rest : List Byte), (10 : Byte) ∉ s → (0 : Byte) ∉ s → (13 : Byte) ∉ s →
    s.length < fuel → blackHole fuel ⟨s ++ 10 :: rest, false⟩ = some (some ⟨rest, false⟩) := by
  induction fuel with
  | zero => intro s rest _ _ _ h; simp at h
  | succ fuel ih =>
    intro s rest h1 h2 h3 hf
    rw [blackHole]
    by_cases hl : s.length < 127
    · have hg : fgets 128 ⟨s ++ 10 :: rest, false⟩ = some (s ++ [10], ⟨rest, false⟩) := by
        unfold fgets
        rw [if_neg (by simp)]
        dsimp only
        rw [takeLine_lf _ _ _ h1 (by omega)]
        dsimp only
        rw [takeWhile_all (by simp [h2])]
        simp
      rw [hg]
      have hr : reachedLineEnd ⟨rest, false⟩ (s ++ [10]) = true := by
        unfold reachedLineEnd; rw [List.getLast?_concat]; simp
      dsimp only
      rw [hr]
      rfl
    · have hsp : s ++ 10 :: rest = s.take 127 ++ (s.drop 127 ++ 10 :: rest) := by
        rw [← List.append_assoc, List.take_append_drop]
      have hsub : ∀ c, c ∈ s.take 127 → c ∈ s := fun c hc => List.mem_of_mem_take hc
      have hsub2 : ∀ c, c ∈ s.drop 127 → c ∈ s := fun c hc => List.mem_of_mem_drop hc
      have hlen : (s.take 127).length = 127 := by rw [List.length_take]; omega
      have hne : s.take 127 ≠ [] := by intro e; rw [e] at hlen; simp at hlen
      have hg : fgets 128 ⟨s ++ 10 :: rest, false⟩ = some (s.take 127, ⟨s.drop 127 ++ 10 :: rest, false⟩) := by
        rw [hsp]
        unfold fgets
        dsimp only
        rw [if_neg (by simp [hne]), takeLine_full _ _ _ (fun h => h1 (hsub _ h)) hlen]
        dsimp only
        rw [takeWhile_all (fun h => h2 (hsub _ h)), hlen]
        simp
      rw [hg]
      have hr : reachedLineEnd ⟨s.drop 127 ++ 10 :: rest, false⟩ (s.take 127) = false := by
        unfold reachedLineEnd
        split
        · rename_i c hc
          have := hsub _ (List.mem_of_getLast? hc)
          rw [if_neg]
          rintro (rfl | rfl)
          · exact h3 this
          · exact h1 this
        · rfl
      dsimp only
      rw [hr]
      exact ih _ _ (fun h => h1 (hsub2 _ h)) (fun h => h2 (hsub2 _ h)) (fun h => h3 (hsub2 _ h))
        (by rw [List.length_drop]; omega)

/-- A line with a comment that does not fit the buffer, the mark does. -/
theorem readLine_comment (n fuel : Nat) (u r rest : List Byte) (m : Byte) (hm : m = 35 ∨ (m = 59 ∧ (35 : Byte) ∉ r))
    (hlf : (10 : Byte) ∉ u ++ m :: r) (hnul : (0 : Byte) ∉ u ++ m :: r) (hcr : (13 : Byte) ∉ u ++ m :: r)
    (hu : (35 : Byte) ∉ u ∧ (59 : Byte) ∉ u) (hfit : u.length + 2 ≤ n) (hlong : n < (u ++ m :: r).length + 2) :
    readLine n (fuel + 1) ⟨(u ++ m :: r) ++ 10 :: rest, false⟩ =
      if trim u = [] then readLine n fuel ⟨rest, false⟩ else .done (trim u) ⟨rest, false⟩ := by
  generalize hs : u ++ m :: r = s at *
  have hsp : s ++ 10 :: rest = s.take (n - 1) ++ (s.drop (n - 1) ++ 10 :: rest) := by
    rw [← List.append_assoc, List.take_append_drop]
  have hsub : ∀ c, c ∈ s.take (n - 1) → c ∈ s := fun c hc => List.mem_of_mem_take hc
  have hsub2 : ∀ c, c ∈ s.drop (n - 1) → c ∈ s := fun c hc => List.mem_of_mem_drop hc
  have hlen : (s.take (n - 1)).length = n - 1 := by rw [List.length_take]; omega
  have hne : s.take (n - 1) ≠ [] := by intro e; rw [e] at hlen; simp at hlen; omega
  have hg : fgets n ⟨s ++ 10 :: rest, false⟩ = some (s.take (n - 1), ⟨s.drop (n - 1) ++ 10 :: rest, false⟩) := by
    rw [hsp]
    unfold fgets
    dsimp only
    rw [if_neg (by simp [hne]), takeLine_full _ _ _ (fun h => hlf (hsub _ h)) hlen]
    dsimp only
    rw [takeWhile_all (fun h => hnul (hsub _ h)), hlen]
    simp
  have hr : reachedLineEnd ⟨s.drop (n - 1) ++ 10 :: rest, false⟩ (s.take (n - 1)) = false := by
    unfold reachedLineEnd
    split
    · rename_i c hc
      have := hsub _ (List.mem_of_getLast? hc)
      rw [if_neg]
      rintro (rfl | rfl)
      · exact hcr this
      · exact hlf this
    · rfl
  have htake : s.take (n - 1) = u ++ m :: r.take (n - 2 - u.length) := by
    rw [← hs, List.take_append, List.take_of_length_le (by omega)]
    obtain ⟨k, hk⟩ : ∃ k, n - 1 - u.length = k + 1 := ⟨n - 2 - u.length, by omega⟩
    rw [hk, List.take_succ_cons]
    congr 3
    omega
  have hb : (let a := clearAnnotation (s.take (n - 1)) 35; if a.2 then a else clearAnnotation a.1 59) = (dropFoot u, true) := by
    rw [htake]
    rcases hm with rfl | ⟨rfl, hr35⟩
    · rw [clear_yes hu.1]; rfl
    · have : (35 : Byte) ∉ u ++ 59 :: r.take (n - 2 - u.length) := by
        simp only [List.mem_append, List.mem_cons, not_or]
        exact ⟨hu.1, by decide, fun h => hr35 (List.mem_of_mem_take h)⟩
      rw [clear_no this]
      dsimp only
      rw [if_neg (by simp), clear_yes hu.2]
  rw [readLine, hg]
  dsimp only at hb ⊢
  rw [hr, hb]
  simp only [if_true, Bool.false_eq_true, if_false]
  rw [blackHole_rest _ _ _ (fun h => hlf (hsub2 _ h)) (fun h => hnul (hsub2 _ h)) (fun h => hcr (hsub2 _ h)) (by simp; omega)]
  dsimp only
  rw [foot_dropFoot]
  rfl

end Verif.ReadLine
