import Verif.Lemmas.ReadLine
/-! Every line of a file is seen (C40). -/

namespace Verif.ReadLine

/-- C40: every line of a file is seen. -/
def EveryLine : Prop := ∀ (n : Nat) (ss : List (List Byte)) (last : List Byte), 128 ≤ n →
  (∀ s ∈ ss ++ [last], (10 : Byte) ∉ s ∧ (0 : Byte) ∉ s) →
  ∃ ts, readFile n (text ss last) = some ts ∧ Seen n (ss ++ [last]) ts

/-- A line that does not fit the buffer, but is skipped as it should. -/
structure LongOk (n : Nat) (s : List Byte) : Prop where
  long : n < s.length + 2
  lf : (10 : Byte) ∉ s
  nul : (0 : Byte) ∉ s
  cr : (13 : Byte) ∉ s
  mark : (35 : Byte) ∉ s ∧ (59 : Byte) ∉ s
  /-- The last one of the chunks of 127 bytes that follow the first one is not blank. -/
  chunk : ∃ c ∈ (s.drop (n - 1)).drop ((s.length - (n - 1)) / 127 * 127), c ∉ whites

/-- A line that does not fit the buffer, but its text before the comment does, with the mark. -/
structure CommentOk (n : Nat) (s : List Byte) : Prop where
  long : n < s.length + 2
  lf : (10 : Byte) ∉ s
  nul : (0 : Byte) ∉ s
  cr : (13 : Byte) ∉ s
  fits : ∃ u m r, s = u ++ m :: r ∧ u.length + 2 ≤ n ∧ (35 : Byte) ∉ u ∧ (59 : Byte) ∉ u ∧ (m = 35 ∨ m = 59 ∧ (35 : Byte) ∉ r)

/-- The lines that are read as they should. -/
def Ok (n : Nat) (s : List Byte) : Prop := (LineOk s ∧ s.length + 2 ≤ n) ∨ LongOk n s ∨ CommentOk n s

theorem fin_of_nil (n fuel : Nat) (e : Bool) : readLine n (fuel + 1) ⟨[], e⟩ = .fin ⟨[], true⟩ := by
  simp [readLine, fgets]

theorem readAll_nil (n fuel : Nat) (e : Bool) : readAll n (fuel + 1) ⟨[], e⟩ = some [] := by
  rw [readAll, call, fin_of_nil]

/-- A line that is read in one round. -/
theorem one_round (n fuel : Nat) (s rest : List Byte) (hs : (LineOk s ∧ s.length + 2 ≤ n) ∨ CommentOk n s) :
    ∃ t, Visible s t ∧ readLine n (fuel + 1) ⟨s ++ 10 :: rest, false⟩ =
      if t = [] then readLine n fuel ⟨rest, false⟩ else .done t ⟨rest, false⟩ := by
  rcases hs with ⟨h, hl⟩ | h
  · exact readLine_line n fuel s rest h hl
  · obtain ⟨u, m, r, h1, h2, h3, h4, h5⟩ := h.fits
    have hlong := h.long
    have hlf := h.lf
    have hnul := h.nul
    have hcr := h.cr
    subst h1
    refine ⟨trim u, ⟨u, ⟨fun c hc => ⟨fun e => h3 (e ▸ hc), fun e => h4 (e ▸ hc)⟩, .inr ⟨r, ?_⟩⟩, bare_trim u⟩,
      readLine_comment n fuel u r rest m h5 hlf hnul hcr ⟨h3, h4⟩ h2 hlong⟩
    rcases h5 with rfl | ⟨rfl, -⟩
    · exact .inl rfl
    · exact .inr rfl

theorem text_cons (s : List Byte) (ss : List (List Byte)) (last : List Byte) : text (s :: ss) last = s ++ 10 :: text ss last := by
  simp [text]

/-- One call: lines that are blank are passed over. -/
theorem call_cases (n : Nat) (hn : 2 ≤ n) (last : List Byte) (hlast : LineOk last) (hll : last.length + 2 ≤ n)
    (hlw : last = [] ∨ ∃ c ∈ last, c ∉ whites) (ss : List (List Byte)) :
    ∀ fuel, (text ss last).length + 1 ≤ fuel → (∀ s ∈ ss, Ok n s) →
    (∃ f, readLine n fuel ⟨text ss last, false⟩ = .fin f ∧ Seen n (ss ++ [last]) []) ∨
    (∃ t, readLine n fuel ⟨text ss last, false⟩ = .done t ⟨[], true⟩ ∧ text ss last ≠ [] ∧ Seen n (ss ++ [last]) [t]) ∨
    (∃ t ss', (text ss' last).length < (text ss last).length ∧ (∀ s ∈ ss', s ∈ ss) ∧
      readLine n fuel ⟨text ss last, false⟩ = .done t ⟨text ss' last, false⟩ ∧
      ∀ ts, Seen n (ss' ++ [last]) ts → Seen n (ss ++ [last]) (t :: ts)) ∨
    (∃ s ss', (text ss' last).length < (text ss last).length ∧ (∀ s ∈ ss', s ∈ ss) ∧ LongOk n s ∧
      readLine n fuel ⟨text ss last, false⟩ = .truncated (s.take (n - 1)) ⟨s.drop (n - 1) ++ 10 :: text ss' last, false⟩ ∧
      ∀ ts, Seen n (ss' ++ [last]) ts → Seen n (ss ++ [last]) ts) := by
  induction ss with
  | nil =>
    intro fuel hf _
    simp only [text, List.flatMap_nil, List.nil_append] at hf ⊢
    rcases hlw with rfl | hw
    · left
      obtain ⟨fuel, rfl⟩ : ∃ k, fuel = k + 1 := ⟨fuel - 1, by simp at hf; omega⟩
      exact ⟨_, fin_of_nil _ _ _, .blank ⟨[], ⟨by simp, .inl rfl⟩, ⟨[], [], rfl, by simp, by simp, by simp, by simp⟩⟩ .nil⟩
    · have hne : last ≠ [] := by obtain ⟨c, hc, -⟩ := hw; exact List.ne_nil_of_mem hc
      have := List.length_pos_iff.2 hne
      obtain ⟨fuel, rfl⟩ : ∃ k, fuel = k + 2 := ⟨fuel - 2, by omega⟩
      obtain ⟨t, ht, h⟩ := readLine_last n (fuel + 1) last hlast hll hw
      rw [h]
      by_cases e : t = []
      · subst e
        left
        rw [if_pos rfl]
        exact ⟨_, fin_of_nil _ _ _, .blank ht .nil⟩
      · right; left
        rw [if_neg e]
        exact ⟨t, rfl, hne, .line ht e .nil⟩
  | cons s ss ih =>
    intro fuel hf hs
    rw [text_cons] at hf ⊢
    have hlen : (text ss last).length + 1 ≤ (s ++ 10 :: text ss last).length := by simp
    obtain ⟨fuel, rfl⟩ : ∃ k, fuel = k + 1 := ⟨fuel - 1, by omega⟩
    have hcase : ((LineOk s ∧ s.length + 2 ≤ n) ∨ CommentOk n s) ∨ LongOk n s := by
      rcases hs s (by simp) with h | h | h
      · exact .inl (.inl h)
      · exact .inr h
      · exact .inl (.inr h)
    rcases hcase with hok | hlong
    · obtain ⟨t, ht, h⟩ := one_round n fuel s (text ss last) hok
      rw [h]
      by_cases e : t = []
      · subst e
        rw [if_pos rfl]
        rcases ih fuel (by omega) (fun x hx => hs x (by simp [hx])) with ⟨f, h1, h2⟩ | ⟨t, h1, h1', h2⟩ | ⟨t, ss', h0, h0', h1, h2⟩ |
            ⟨s', ss', h0, h0', h00, h1, h2⟩
        · exact .inl ⟨f, h1, .blank ht h2⟩
        · exact .inr (.inl ⟨t, h1, by simp, .blank ht h2⟩)
        · exact .inr (.inr (.inl ⟨t, ss', by omega, fun x hx => by simp [h0' x hx], h1, fun ts hts => .blank ht (h2 ts hts)⟩))
        · exact .inr (.inr (.inr ⟨s', ss', by omega, fun x hx => by simp [h0' x hx], h00, h1, fun ts hts => .blank ht (h2 ts hts)⟩))
      · rw [if_neg e]
        exact .inr (.inr (.inl ⟨t, ss, by omega, fun x hx => by simp [hx], rfl, fun ts hts => .line ht e hts⟩))
    · refine .inr (.inr (.inr ⟨s, ss, by omega, fun x hx => by simp [hx], hlong, ?_, fun ts hts => .long hlong.long hts⟩))
      have hlong' := hlong.long
      have hlen : (s.take (n - 1)).length = n - 1 := by rw [List.length_take]; omega
      have hsub : ∀ c, c ∈ s.take (n - 1) → c ∈ s := fun c hc => List.mem_of_mem_take hc
      have := readLine_chunk n fuel (s.take (n - 1)) (s.drop (n - 1) ++ 10 :: text ss last)
        (by intro e; rw [e] at hlen; simp at hlen; omega) (fun h => hlong.lf (hsub _ h)) (fun h => hlong.nul (hsub _ h))
        (fun h => hlong.cr (hsub _ h)) (fun h => hlong.mark.1 (hsub _ h)) (fun h => hlong.mark.2 (hsub _ h)) (by omega)
      rw [← List.append_assoc, List.take_append_drop] at this
      exact this

theorem readAll_lines (n : Nat) (hn : 2 ≤ n) (last : List Byte) (hlast : LineOk last) (hll : last.length + 2 ≤ n)
    (hlw : last = [] ∨ ∃ c ∈ last, c ∉ whites) (fuel : Nat) :
    ∀ (ss : List (List Byte)), (text ss last).length + 1 ≤ fuel → (∀ s ∈ ss, Ok n s) →
    ∃ ts, readAll n fuel ⟨text ss last, false⟩ = some ts ∧ Seen n (ss ++ [last]) ts := by
  induction fuel with
  | zero => intro ss h; omega
  | succ fuel ih =>
    intro ss hf hs
    rw [readAll, call]
    rcases call_cases n hn last hlast hll hlw ss _ (Nat.le_refl _) hs with ⟨f, h1, h2⟩ | ⟨t, h1, h1', h2⟩ | ⟨t, ss', h0, h0', h1, h2⟩ |
            ⟨s', ss', h0, h0', h00, h1, h2⟩
    · dsimp only
      rw [h1]
      exact ⟨[], rfl, h2⟩
    · dsimp only
      rw [h1]
      have := List.length_pos_iff.2 h1'
      obtain ⟨fuel, rfl⟩ : ∃ k, fuel = k + 1 := ⟨fuel - 1, by omega⟩
      dsimp only
      rw [readAll_nil]
      exact ⟨[t], rfl, h2⟩
    · dsimp only
      rw [h1]
      obtain ⟨ts, h3, h4⟩ := ih ss' (by omega) (fun s hs' => hs s (h0' s hs'))
      dsimp only
      rw [h3]
      exact ⟨t :: ts, rfl, h2 ts h4⟩
    · dsimp only
      rw [h1]
      obtain ⟨ts, h3, h4⟩ := ih ss' (by omega) (fun s hs' => hs s (h0' s hs'))
      have hsub2 : ∀ c, c ∈ s'.drop (n - 1) → c ∈ s' := fun c hc => List.mem_of_mem_drop hc
      have := skip_rest ((s'.drop (n - 1) ++ 10 :: text ss' last).length + 1) (s'.drop (n - 1)) (text ss' last)
        (fun h => h00.lf (hsub2 _ h)) (fun h => h00.nul (hsub2 _ h)) (fun h => h00.cr (hsub2 _ h)) (fun h => h00.mark.1 (hsub2 _ h))
        (fun h => h00.mark.2 (hsub2 _ h)) (by rw [List.length_drop]; exact h00.chunk) (by simp only [List.length_append]; omega)
      dsimp only
      rw [this]
      exact ⟨ts, h3, h2 ts h4⟩

/-- C40, for files whose lines are read as they should: lines that fit the buffer, without NUL, with a
carriage return at the end only, and no `;` before a `#`; longer lines whose text and comment mark fit; or longer lines
whose last chunk is not blank.  The last line, if it has no line feed, is empty or not blank.  Missing: see
`every_line_false`. -/
theorem every_line_partial (n : Nat) (ss : List (List Byte)) (last : List Byte) (hn : 2 ≤ n) (hs : ∀ s ∈ ss, Ok n s)
    (hlast : LineOk last) (hll : last.length + 2 ≤ n) (hlw : last = [] ∨ ∃ c ∈ last, c ∉ whites) :
    ∃ ts, readFile n (text ss last) = some ts ∧ Seen n (ss ++ [last]) ts :=
  readAll_lines n hn last hlast hll hlw _ ss (Nat.le_refl _) hs

/-! ### The lines fit the buffer -/

theorem dropFoot_length (s : List Byte) : (dropFoot s).length ≤ s.length := by
  unfold dropFoot
  rw [List.length_reverse]
  exact Nat.le_trans (List.dropWhile_sublist _).length_le (by simp)

theorem clear_length (s : List Byte) (m : Byte) : (clearAnnotation s m).1.length ≤ s.length := by
  unfold clearAnnotation
  split
  · exact Nat.le_trans (dropFoot_length _) (List.takeWhile_sublist _).length_le
  · exact Nat.le_refl _

theorem foot_length {s t : List Byte} (h : eliminateFootSpace s = some t) : t.length ≤ s.length := by
  unfold eliminateFootSpace at h
  split at h
  · cases h; simp
  · split at h
    · cases h
    · cases h; exact dropFoot_length s

theorem head_length (s : List Byte) : (eliminateHeadSpace s).length ≤ s.length := (List.dropWhile_sublist _).length_le

theorem takeLine_length (n : Nat) : ∀ l, (takeLine n l).1.length ≤ n := by
  induction n with
  | zero => intro l; simp [takeLine]
  | succ n ih =>
    intro l
    cases l with
    | nil => simp [takeLine]
    | cons c l =>
      rw [takeLine]
      split
      · simp
      · simpa using ih l

theorem fgets_length {n : Nat} {f f' : File} {s : List Byte} (hn : 1 ≤ n) (h : fgets n f = some (s, f')) : s.length < n := by
  unfold fgets at h
  split at h
  · cases h
  · cases h
    have := takeLine_length (n - 1) f.rest
    have := (List.takeWhile_sublist (fun c : Byte => c != 0) (l := (takeLine (n - 1) f.rest).1)).length_le
    omega

theorem readLine_length {n : Nat} (hn : 1 ≤ n) : ∀ (fuel : Nat) (f f' : File) (t : List Byte), readLine n fuel f = .done t f' → t.length < n := by
  intro fuel
  induction fuel with
  | zero => intro f f' t h; simp [readLine] at h
  | succ fuel ih =>
    intro f f' t h
    rw [readLine] at h
    split at h
    · cases h
    · rename_i s f1 hf
      have hs := fgets_length hn hf
      dsimp only at h
      generalize hb : (if (clearAnnotation s 35).2 = true then clearAnnotation s 35 else clearAnnotation (clearAnnotation s 35).1 59) = b at h
      have hbl : b.1.length ≤ s.length := by
        rw [← hb]
        split
        · exact clear_length s 35
        · exact Nat.le_trans (clear_length _ _) (clear_length _ _)
      split at h
      · split at h
        · cases h
        · cases h
        · split at h
          · cases h
          · rename_i t1 ht1
            have h1 := foot_length ht1
            have h2 := head_length t1
            split at h
            · exact ih _ _ _ h
            · cases h; omega
      · split at h
        · split at h
          · cases h
          · rename_i t1 ht1
            have h1 := foot_length ht1
            have h2 := head_length t1
            have h3 : (eliminateCRLF s).length ≤ s.length := Nat.le_trans (clear_length _ _) (clear_length _ _)
            split at h
            · exact ih _ _ _ h
            · cases h; omega
        · cases h

theorem readAll_short {n : Nat} (hn : 1 ≤ n) : ∀ (fuel : Nat) (f : File) (ts : List (List Byte)), readAll n fuel f = some ts → ∀ t ∈ ts, t.length < n := by
  intro fuel
  induction fuel with
  | zero => intro f ts h; simp [readAll] at h
  | succ fuel ih =>
    intro f ts h t ht
    rw [readAll] at h
    split at h
    · cases h
    · cases h
    · cases h; simp at ht
    · rename_i s f' hc
      rw [Option.map_eq_some_iff] at h
      obtain ⟨ts', h1, rfl⟩ := h
      rcases List.mem_cons.1 ht with rfl | ht
      · exact readLine_length hn _ _ _ _ hc
      · exact ih _ _ h1 t ht
    · split at h
      · cases h
      · exact ih _ _ h t ht

/-- What is seen of a line is shorter than the buffer. -/
theorem readFile_short (n : Nat) (hn : 1 ≤ n) (content : List Byte) (ts : List (List Byte)) (h : readFile n content = some ts) :
    ∀ t ∈ ts, t.length < n := readAll_short hn _ _ ts h

/-! ### It is not true of every file -/

/-- All of a line without white space and marks is to be seen. -/
theorem visible_plain {s t : List Byte} (h : Visible s t) (hs : ∀ c ∈ s, c ∉ whites ∧ c ≠ 35 ∧ c ≠ 59) : t = s := by
  obtain ⟨u, ⟨-, hu⟩, a, b, e, ha, hb, -, -⟩ := h
  have hus : s = u := by
    rcases hu with hu | ⟨r, hr | hr⟩
    · exact hu
    · exact absurd rfl (hs 35 (by rw [hr]; simp)).2.1
    · exact absurd rfl (hs 59 (by rw [hr]; simp)).2.2
  subst hus
  have ha' : a = [] := List.eq_nil_iff_forall_not_mem.2 (fun c hc => (hs c (by rw [e]; simp [hc])).1 (ha c hc))
  have hb' : b = [] := List.eq_nil_iff_forall_not_mem.2 (fun c hc => (hs c (by rw [e]; simp [hc])).1 (hb c hc))
  rw [e, ha', hb']
  simp

/-- The line after one of 127 bytes, in a buffer of 128, is swallowed: its line feed is a blank line for
`ReadLine_GoToNextLine`, which goes on to the next one. -/
theorem every_line_false : ¬ EveryLine := by
  intro h
  obtain ⟨ts, h1, h2⟩ := h 128 [List.replicate 127 97, [98], [99]] [] (by omega) (by decide +kernel)
  have : readFile 128 (text [List.replicate 127 97, [98], [99]] []) = some [[99]] := by decide +kernel
  rw [this] at h1
  obtain rfl : [[99]] = ts := by simpa using h1
  have hp : ∀ t, Visible (List.replicate 127 97) t → t = List.replicate 127 97 := fun t ht => visible_plain ht (by decide +kernel)
  have hb : ∀ t, Visible [98] t → t = [98] := fun t ht => visible_plain ht (by decide)
  have h3 : Seen 128 [[98], [99], []] [[99]] := by
    generalize List.replicate 127 97 = l at *
    cases h2 with
    | blank v _ => simpa using congrArg List.length (hp _ v)
    | line v _ _ => simpa using congrArg List.length (hp _ v)
    | long _ h => exact h
  cases h3 with
  | blank v _ => simpa using hb _ v
  | line v _ _ => simpa using hb _ v
  | long h _ => simp at h

/-- A mark `;` before a `#` is not seen: the comment becomes part of the text. -/
theorem semicolon_kept : readFile 128 (str "a;b#c\n") = some [str "a;b"] := by decide +kernel

/-- If the file ends with blanks after the last line feed, the byte before the buffer is read. -/
theorem blank_end_undefined : readFile 128 (str "a\n ") = none := by decide +kernel

/-- A last line whose comment fills the buffer exactly is lost. -/
theorem comment_end_lost : readFile 10 (str "b\na #345678") = some [str "b"] := by decide +kernel

/-- A carriage return within a line ends the text that is seen, if nothing of the line is a comment. -/
theorem cr_cuts : readFile 128 (str "a\rb\n") = some [str "a"] := by decide +kernel

/-! ### Cases that meet the hypotheses -/

example : readFile 128 (text [str " Block a.com # no\r", [], str "; x"] (str "last\t")) = some [str "Block a.com", str "last"] := by
  decide +kernel

example : ∀ s ∈ [str " Block a.com # no\r", [], str "; x"], Ok 128 s := by
  have h : ∀ s, (10 : Byte) ∉ s → (0 : Byte) ∉ s → (13 : Byte) ∉ s.dropLast → ((35 : Byte) ∈ s → (59 : Byte) ∉ s.takeWhile (· != 35)) →
      s.length + 2 ≤ 128 → Ok 128 s := fun s h1 h2 h3 h4 h5 =>
    .inl ⟨⟨h1, h2, h3, fun u r e hu => by
      have := h4 (by rw [e]; simp)
      rw [e, takeWhile_ne _ _ _ hu] at this; exact this⟩, h5⟩
  intro s hs
  simp only [List.mem_cons, List.not_mem_nil, or_false] at hs
  rcases hs with rfl | rfl | rfl <;> exact h _ (by decide) (by decide) (by decide) (by decide) (by decide)

example : LongOk 128 (List.replicate 128 97) :=
  ⟨by decide +kernel, by decide +kernel, by decide +kernel, by decide +kernel, by decide +kernel, by decide +kernel⟩

example : readFile 128 (text [List.replicate 128 97, [98], [99]] []) = some [[98], [99]] := by decide +kernel

example : CommentOk 128 (97 :: 35 :: List.replicate 300 59) :=
  ⟨by decide +kernel, by decide +kernel, by decide +kernel, by decide +kernel,
    ⟨[97], 35, List.replicate 300 59, rfl, by decide, by decide, by decide, .inl rfl⟩⟩

end Verif.ReadLine
