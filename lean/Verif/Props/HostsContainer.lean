import Verif.Lemmas.HostsContainer
import Verif.Props.IpText
/-! C25 (what the hosts data say about a name), C64 (how hosts lines are read). -/

namespace Verif.Hosts
open StringChunk IpText

/-! ### Reading a line -/

theorem isSpace_iff (c : Byte) : isSpace c = true ↔ Blank c := by
  unfold isSpace Blank; simp [Bool.and_eq_true]

theorem scanWord_line {sp w rest : List Byte} (hw : Word w) (hsp : ∀ c ∈ sp, Blank c)
    (hr : ∀ c ∈ rest.head?, Blank c) : scanWord (sp ++ (w ++ rest)) = some (w, rest) := by
  obtain ⟨h1, h2, h3⟩ := hw
  have hsk : skipSpace (sp ++ (w ++ rest)) = w ++ rest := by
    unfold skipSpace
    rw [List.dropWhile_append_of_pos (by intro c hc; exact (isSpace_iff c).2 (hsp c hc))]
    cases w with
    | nil => exact absurd rfl h1
    | cons c w =>
      rw [List.cons_append, List.dropWhile_cons_of_neg]
      intro h; exact h3 c (by simp) ((isSpace_iff c).1 h)
  have htw : (w ++ rest).takeWhile (fun c => !isSpace c) = w := by
    rw [List.takeWhile_append_of_pos]
    · cases rest with
      | nil => simp
      | cons c r =>
        have := (isSpace_iff c).2 (hr c (by simp))
        rw [List.takeWhile_cons_of_neg (by simp [this])]; simp
    · intro c hc
      have : isSpace c ≠ true := fun h => h3 c hc ((isSpace_iff c).1 h)
      simpa using this
  unfold scanWord
  simp only [hsk, htw, List.take_of_length_le h2]
  rw [if_neg h1]; simp

theorem scan2_line {line w n : List Byte} (h : Line line w n) : scan2 line = some (w, n) := by
  obtain ⟨hw, hn, s1, s2, rest, rfl, h1, h2, h3, h4⟩ := h
  unfold scan2
  rw [scanWord_line hw h1 (by
    intro c hc
    cases s2 with
    | nil => exact absurd rfl h2
    | cons d s => simp at hc; subst hc; exact h3 d (by simp))]
  dsimp only
  rw [scanWord_line hn h3 h4]

theorem scanWord_blank {s : List Byte} (h : ∀ c ∈ s, Blank c) : scanWord s = none := by
  have : skipSpace s = [] := by
    unfold skipSpace
    have := List.dropWhile_append_of_pos (l₁ := s) (l₂ := []) (p := isSpace) (by intro c hc; exact (isSpace_iff c).2 (h c hc))
    simpa using this
  unfold scanWord
  simp [this]

theorem scan2_oneWord {line : List Byte} (h : OneWord line) : scan2 line = none := by
  obtain ⟨s1, w, s2, rfl, h0, h1, h2, h3⟩ := h
  unfold scan2
  by_cases hw : w = []
  · subst hw
    rw [scanWord_blank (by
      intro c hc
      rcases List.mem_append.1 hc with hc | hc
      · exact h1 c hc
      · exact h3 c (by simpa using hc))]
  · rw [scanWord_line ⟨hw, h0, h2⟩ h1 (by
      intro c hc; exact h3 c (List.mem_of_mem_head? hc))]
    dsimp only
    rw [scanWord_blank h3]

theorem decDigit_chars {c : Byte} {d : Nat} (h : DecDigit c d) :
    isDigit c = true ∧ isXDigit c = true ∧ isAlpha c = false ∧ c ≠ 45 ∧ c ≠ 46 ∧ c ≠ 58 ∧ c ≠ 60 ∧ c ≠ 64 := by
  have key : ∀ c : Byte, decVal c ≠ none → isDigit c = true ∧ isXDigit c = true ∧ isAlpha c = false ∧ c ≠ 45 ∧ c ≠ 46 ∧ c ≠ 58 ∧ c ≠ 60 ∧ c ≠ 64 :=
    forall_byte _ (by decide +kernel)
  exact key c (by rw [decVal_of h]; simp)

theorem decNum_chars {s : List Byte} {n : Nat} (h : DecNum s n) : s ≠ [] ∧ ∀ c ∈ s,
    isDigit c = true ∧ isXDigit c = true ∧ isAlpha c = false ∧ c ≠ 45 ∧ c ≠ 46 ∧ c ≠ 58 ∧ c ≠ 60 ∧ c ≠ 64 := by
  induction h with
  | one h => exact ⟨by simp, by intro x hx; simp at hx; subst hx; exact decDigit_chars h⟩
  | more _ h ih =>
    refine ⟨by simp, ?_⟩
    intro x hx
    rcases List.mem_append.1 hx with hx | hx
    · exact ih.2 x hx
    · simp at hx; subst hx; exact decDigit_chars h

theorem determine_v4 {w : List Byte} {a b c d : Nat} (h : V4Text w a b c d) : determineType w = .a ∧
    w.find? (fun c => c == 46 || c == 58) = some 46 := by
  cases h with
  | @mk s t u v _ _ _ _ h1 h2 h3 h4 =>
    obtain ⟨n1, c1⟩ := decNum_chars h1
    obtain ⟨_, c2⟩ := decNum_chars h2
    obtain ⟨_, c3⟩ := decNum_chars h3
    obtain ⟨_, c4⟩ := decNum_chars h4
    have hall : ∀ x ∈ s ++ 46 :: (t ++ 46 :: (u ++ 46 :: v)), isAlpha x = false ∧ x ≠ 45 ∧ x ≠ 58 := by
      intro x hx
      simp only [List.mem_append, List.mem_cons] at hx
      rcases hx with h | rfl | h | rfl | h | rfl | h
      · exact ⟨(c1 x h).2.2.1, (c1 x h).2.2.2.1, (c1 x h).2.2.2.2.2.1⟩
      · decide
      · exact ⟨(c2 x h).2.2.1, (c2 x h).2.2.2.1, (c2 x h).2.2.2.2.2.1⟩
      · decide
      · exact ⟨(c3 x h).2.2.1, (c3 x h).2.2.2.1, (c3 x h).2.2.2.2.2.1⟩
      · decide
      · exact ⟨(c4 x h).2.2.1, (c4 x h).2.2.2.1, (c4 x h).2.2.2.2.2.1⟩
    cases s with
    | nil => exact absurd rfl n1
    | cons x s =>
      have hx := c1 x (by simp)
      refine ⟨?_, ?_⟩
      · unfold determineType
        rw [if_neg (by simp [hx.2.2.2.2.2.2.1]), if_neg (by simp [hx.2.2.2.2.2.2.2]), if_pos (by simp [hx.2.1])]
        rw [if_neg (fun h => (hall 58 h).2.2 rfl)]
        rw [if_neg (by
          intro h
          obtain ⟨y, hy, hp⟩ := List.any_eq_true.1 h
          have := hall y hy
          simp [this.1, this.2.1] at hp)]
        rw [if_pos (by simp [hx.1])]
      · rw [List.find?_append]
        have : (x :: s).find? (fun c => c == 46 || c == 58) = none := by
          rw [List.find?_eq_none]
          intro y hy
          have := c1 y hy
          simp [this.2.2.2.2.1, this.2.2.2.2.2.1]
        rw [this]; rfl

theorem hexVal_more : ∀ c : Byte, hexVal c ≠ none → isXDigit c = true ∧ c ≠ 46 ∧ c ≠ 60 ∧ c ≠ 64 ∧ c ≠ 58 :=
  forall_byte _ (by decide +kernel)

theorem join_chars {ts : List (List Byte)} {vs : List Nat} (h : Groups ts vs) : ∀ c ∈ join ts, c = 58 ∨ hexVal c ≠ none := by
  induction h with
  | nil => simp [join]
  | @cons t v ts vs hg hs ih =>
    have ht := (group_chars hg.1).2
    cases ts with
    | nil => intro c hc; exact Or.inr (ht c (by simpa [join] using hc))
    | cons t' ts =>
      intro c hc
      simp only [join, List.mem_append, List.mem_cons] at hc
      rcases hc with hc | rfl | hc
      · exact Or.inr (ht c hc)
      · exact Or.inl rfl
      · exact ih c hc

theorem join_colon {ts : List (List Byte)} (h : 2 ≤ ts.length) : (58 : Byte) ∈ join ts := by
  match ts, h with
  | t :: t' :: ts, _ => simp [join]

theorem v6_chars {w : List Byte} {vs : List Nat} (h : V6Text w vs) :
    (∀ c ∈ w, c = 58 ∨ hexVal c ≠ none) ∧ (58 : Byte) ∈ w := by
  cases h with
  | full h h8 => exact ⟨join_chars h, join_colon (by rw [h.length, h8]; omega)⟩
  | short h h' hk h8 =>
    refine ⟨?_, by simp⟩
    intro c hc
    simp only [List.mem_append, List.mem_cons] at hc
    rcases hc with hc | rfl | rfl | hc
    · exact join_chars h c hc
    · exact Or.inl rfl
    · exact Or.inl rfl
    · exact join_chars h' c hc

theorem determine_v6 {w : List Byte} {vs : List Nat} (h : V6Text w vs) : determineType w = .aaaa ∧
    w.find? (fun c => c == 46 || c == 58) = some 58 := by
  obtain ⟨hc, hm⟩ := v6_chars h
  refine ⟨?_, ?_⟩
  · cases w with
    | nil => simp at hm
    | cons x w =>
      have hx : x ≠ 60 ∧ x ≠ 64 := by
        rcases hc x (by simp) with rfl | h
        · decide
        · exact ⟨(hexVal_more x h).2.2.1, (hexVal_more x h).2.2.2.1⟩
      unfold determineType
      rw [if_neg (by simp [hx.1]), if_neg (by simp [hx.2])]
      rcases hc x (by simp) with rfl | h
      · rw [if_neg (show ¬ Option.any isXDigit (58 :: w).head? = true from (by decide : ¬ isXDigit 58 = true)), if_pos (by rfl)]
      · rw [if_pos (by simp [(hexVal_more x h).1]), if_pos hm]
  · cases hf : w.find? (fun c => c == 46 || c == 58) with
    | none => exact absurd (List.find?_eq_none.1 hf 58 hm) (by simp)
    | some c =>
      have h1 := List.find?_some hf
      have h2 := hc c (List.mem_of_find?_eq_some hf)
      rcases h2 with rfl | h2
      · rfl
      · have := hexVal_more c h2
        simp [this.2.1, this.2.2.2.2] at h1

theorem v6Bytes_unique {a b : List Byte} {vs : List Nat} (ha : V6Bytes a vs) (hb : V6Bytes b vs) : a = b := by
  obtain ⟨a1, _, a3⟩ := ha
  obtain ⟨b1, _, b3⟩ := hb
  apply List.ext_getElem (by omega)
  intro i h1 h2
  have e := (a3 (i / 2) (by omega)).trans (b3 (i / 2) (by omega)).symm
  have l1 := UInt8.toNat_lt (a.getD (2 * (i / 2) + 1) 0)
  have l2 := UInt8.toNat_lt (b.getD (2 * (i / 2) + 1) 0)
  have e1 : (a.getD (2 * (i / 2)) 0).toNat = (b.getD (2 * (i / 2)) 0).toNat := by omega
  have e2 : (a.getD (2 * (i / 2) + 1) 0).toNat = (b.getD (2 * (i / 2) + 1) 0).toNat := by omega
  apply UInt8.toNat_inj.1
  rcases Nat.mod_two_eq_zero_or_one i with h | h
  · have : 2 * (i / 2) = i := by omega
    rw [this] at e1
    simpa [List.getD_eq_getElem?_getD, h1, h2] using e1
  · have : 2 * (i / 2) + 1 = i := by omega
    rw [this] at e2
    simpa [List.getD_eq_getElem?_getD, h1, h2] using e2

theorem nameChar_facts : ∀ c : Byte, (((65 ≤ c ∧ c ≤ 90) ∨ (97 ≤ c ∧ c ≤ 122) ∨ (48 ≤ c ∧ c ≤ 57) ∨ c = 45 ∨ c = 46) →
    c ≠ 60 ∧ c ≠ 64 ∧ c ≠ 58 ∧ (isAlnum c = true ∨ c = 45 ∨ c = 46)) ∧
    ((65 ≤ c ∧ c ≤ 90) ∨ (97 ≤ c ∧ c ≤ 122) → isAlpha c = true) :=
  forall_byte _ (by decide +kernel)

theorem determine_alias {w : List Byte} (h : ∀ c ∈ w, NameChar c)
    (hl : ∃ c ∈ w, (65 ≤ c ∧ c ≤ 90) ∨ (97 ≤ c ∧ c ≤ 122)) : determineType w = .cname := by
  obtain ⟨l, hlm, hla⟩ := hl
  cases w with
  | nil => simp at hlm
  | cons x w =>
    have hx := (nameChar_facts x).1 (h x (by simp))
    unfold determineType
    rw [if_neg (by simp [hx.1]), if_neg (by simp [hx.2.1])]
    split
    · rw [if_neg (fun hm => ((nameChar_facts 58).1 (h 58 hm)).2.2.1 rfl), if_pos]
      rw [List.any_eq_true]
      exact ⟨l, hlm, by simp [(nameChar_facts l).2 hla]⟩
    · rw [if_neg (by simp [hx.2.2.1]), if_neg]
      intro ha
      obtain ⟨y, hy, hp⟩ := List.any_eq_true.1 ha
      have := ((nameChar_facts y).1 (h y hy)).2.2.2
      simp only [Bool.and_eq_true, Bool.not_eq_true', bne_iff_ne, ne_eq] at hp
      rcases this with h | h | h
      · rw [h] at hp; simp at hp
      · exact hp.1.2 h
      · exact hp.2 h

/-- A word that says something is taken as exactly that. -/
theorem add_says {w name : List Byte} {ty : HType} {d : Data} (hs : Says w ty d) (hw : w.length ≤ 128) (c : Cont) :
    add c w name = addNode c name ty d ∧ ty ≠ .unknown := by
  cases hs with
  | @v4 _ a b c' d h ha hb hc hd =>
    obtain ⟨h1, h2⟩ := determine_v4 h
    have := v4_scan h [] (by omega) (by omega) (by omega) (by omega) (by simp)
    rw [List.append_nil] at this
    refine ⟨?_, by simp⟩
    unfold add addrBytes
    simp only [h1, h2, if_true, this]
    rfl
  | @v6 _ vs a h ha =>
    obtain ⟨h1, h2⟩ := determine_v6 h
    obtain ⟨a', h3, h4⟩ := v6_parse h [] (by simp)
    rw [List.nil_append] at h3
    refine ⟨?_, by simp⟩
    unfold add addrBytes
    simp only [h1, h2, h3, v6Bytes_unique ha h4]
    rfl
  | alias h hl =>
    refine ⟨?_, by simp⟩
    unfold add
    rw [determine_alias h hl]
  | excluded => exact ⟨rfl, by simp⟩
  | @list t ht h =>
    refine ⟨?_, by simp⟩
    have hd : determineType (60 :: t ++ [62]) = .goodIpList := by
      unfold determineType
      rw [if_pos]
      exact ⟨rfl, List.getLast?_concat⟩
    have hl : listName (60 :: t ++ [62]) = some t := by
      unfold listName
      have : (60 :: t ++ [62]).tail.takeWhile (· != 62) = t := by
        show (t ++ [62]).takeWhile (· != 62) = t
        rw [List.takeWhile_append_of_pos (by intro c hc; simp; intro e; subst e; exact h hc)]
        simp
      have hlen : t.length ≤ 127 := by simp at hw; omega
      simp only [this, List.take_of_length_le hlen]
      rw [if_neg ht]
    unfold add
    rw [hd]; dsimp only; rw [hl]

theorem load_line {line : List Byte} {e : Entry} (h : LineEntry line e) (c : Cont) :
    load c line = addNode c e.name e.type e.data := by
  obtain ⟨w, hl, hs⟩ := h
  unfold load
  rw [scan2_line hl]
  exact (add_says hs hl.1.2.1 c).1

theorem nameChar_iff (c : Byte) : (!isAlnum c && c != 45 && c != 46) = true ↔ ¬ NameChar c :=
  forall_byte (fun c => (!isAlnum c && c != 45 && c != 46) = true ↔ ¬ NameChar c) (by unfold NameChar; decide +kernel) c

theorem startChar (c : Byte) : ¬ ((48 ≤ c ∧ c ≤ 58) ∨ (65 ≤ c ∧ c ≤ 70) ∨ (97 ≤ c ∧ c ≤ 102) ∨ c = 60) →
    isXDigit c = false ∧ c ≠ 58 ∧ c ≠ 60 :=
  forall_byte (fun c => ¬ ((48 ≤ c ∧ c ≤ 58) ∨ (65 ≤ c ∧ c ≤ 70) ∨ (97 ≤ c ∧ c ≤ 102) ∨ c = 60) →
    isXDigit c = false ∧ c ≠ 58 ∧ c ≠ 60) (by decide +kernel) c

theorem determine_foreign {w : List Byte} (h : Foreign w) : determineType w = .unknown := by
  obtain ⟨h1, h2, c, hc, h3⟩ := h
  cases w with
  | nil => simp at hc
  | cons x w =>
    obtain ⟨a1, a2, a3⟩ := startChar x (h1 x rfl)
    unfold determineType
    rw [if_neg (by rintro ⟨h, _⟩; simp at h; exact a3 h), if_neg, if_neg (by simpa using a1),
      if_neg (by simpa using a2), if_pos (List.any_eq_true.2 ⟨c, hc, (nameChar_iff c).2 h3⟩)]
    rintro ⟨e1, e2⟩
    cases w with
    | nil => simp at e2
    | cons y w => simp at e1 e2 h2; exact h2 e1 e2

/-- Lines whose first word can be nothing are ignored. -/
theorem foreign_ignored {line w n : List Byte} (h : Line line w n) (hw : Foreign w) (c : Cont) : load c line = some c := by
  unfold load
  rw [scan2_line h]
  show add c w n = _
  unfold add
  rw [determine_foreign hw]

example : Foreign (str "@list@") ∧ Foreign (str "*x") := by
  refine ⟨⟨by decide, by decide, 64, by decide, by unfold NameChar; decide⟩, ⟨by decide, by decide, 42, by decide, by unfold NameChar; decide⟩⟩

theorem loadAll_lines {lines : List (List Byte)} {es : List Entry} (h : Lines lines es) (c : Cont) (es0 : List Entry)
    (hc : Rel c es0) : ∃ c', loadAll c lines = some c' ∧ Rel c' (es0 ++ es) := by
  induction h generalizing c es0 with
  | nil => exact ⟨c, rfl, by simpa using hc⟩
  | @skip l ls es h hs ih =>
    unfold loadAll load
    rw [scan2_oneWord h]
    exact ih c es0 hc
  | @foreign l w n ls es h hw hs ih =>
    unfold loadAll
    rw [foreign_ignored h hw]
    exact ih c es0 hc
  | @cons l e ls es h hs ih =>
    unfold loadAll
    rw [load_line h]
    obtain ⟨c1, h1, h2⟩ := rel_addNode hc e
    rw [h1]
    obtain ⟨c2, h3, h4⟩ := ih c1 _ h2
    exact ⟨c2, h3, by simpa using h4⟩

/-- C64.  Lines that say something are all taken, each as exactly the entry it stands for. -/
theorem lines_taken {lines : List (List Byte)} {es : List Entry} (h : Lines lines es) :
    ∃ c, loadAll initCont lines = some c ∧ Rel c es := by
  obtain ⟨c, h1, h2⟩ := loadAll_lines h initCont [] rel_init
  exact ⟨c, h1, by simpa using h2⟩

/-! ### What is found -/

theorem used_tried {l : List Entry} {ty : HType} {e : Entry} (h : (tried l).find? (fun e => e.type = ty) = some e) :
    Used l ty e := by
  have ht := List.find?_some h
  simp only [decide_eq_true_iff] at ht
  refine ⟨ht, ?_⟩
  cases l with
  | nil => simp [tried] at h
  | cons x l =>
    unfold tried at h
    by_cases hx : x.type = ty
    · rw [List.find?_cons_of_pos (by simpa using hx)] at h
      left; simpa using h
    · rw [List.find?_cons_of_neg (by simpa using hx)] at h
      right
      refine ⟨by simpa using hx, ?_⟩
      rw [List.find?_eq_some_iff_append] at h
      obtain ⟨_, as, bs, h1, h2⟩ := h
      refine ⟨x :: bs.reverse, as.reverse, ?_, ?_⟩
      · have := congrArg List.reverse h1
        simp at this; simp [this]
      · intro y hy; simpa using h2 y (by simpa using hy)

theorem tried_mem (l : List Entry) (e : Entry) : e ∈ tried l ↔ e ∈ l := by
  cases l <;> simp [tried]

theorem tried_none {l : List Entry} {ty : HType} : (tried l).find? (fun e => e.type = ty) = none ↔ ∀ e ∈ l, e.type ≠ ty := by
  rw [List.find?_eq_none]
  constructor
  · intro h e he; simpa using h e ((tried_mem l e).2 he)
  · intro h e he; simpa using h e ((tried_mem l e).1 he)

/-- There is at most one entry to use. -/
theorem used_unique {l : List Entry} {ty : HType} {e e' : Entry} (h : Used l ty e) (h' : Used l ty e') : e = e' := by
  obtain ⟨t, h⟩ := h
  obtain ⟨t', h'⟩ := h'
  rcases h with h | ⟨h, b, a, hl, ha⟩
  · rcases h' with h' | ⟨h', _⟩
    · rw [h] at h'; exact Option.some.inj h'
    · exact absurd t (h' e (by simp [h]))
  · rcases h' with h' | ⟨_, b', a', hl', ha'⟩
    · exact absurd t' (h e' (by simp [h']))
    · rw [hl] at hl'
      rcases List.append_eq_append_iff.1 hl' with ⟨as, h1, h2⟩ | ⟨bs, h1, h2⟩
      · cases as with
        | nil => simp at h2; exact h2.1
        | cons x as =>
          simp at h2
          exact absurd t' (ha e' (by rw [h2.2]; simp))
      · cases bs with
        | nil => simp at h2; exact h2.1.symm
        | cons x bs =>
          simp at h2
          exact absurd t (ha' e (by rw [h2.2]; simp))

/-- C25, the data.  For any hosts data, name and type: what is found is the entry to be used for that name
and type; for type AAAA, if there is none, the IPv4 entry to be used.  Nothing is found exactly if the
name has neither. -/
theorem find_used {lines : List (List Byte)} {es : List Entry} (h : Lines lines es) {c : Cont}
    (hc : loadAll initCont lines = some c) (fnm : List Byte → List Byte → Bool) (name : List Byte) (ty : HType)
    (hty : ty ≠ .unknown) :
    (∀ t n, find c fnm name ty = some (t, n) → t = ty ∧ ∃ e, n.type = e.type ∧ n.data = e.data ∧
      (Used (entriesFor fnm es name) ty e ∨
        ty = .aaaa ∧ (∀ x ∈ entriesFor fnm es name, x.type ≠ .aaaa) ∧ Used (entriesFor fnm es name) .a e)) ∧
    (find c fnm name ty = none ↔
      (∀ x ∈ entriesFor fnm es name, x.type ≠ ty) ∧ (ty = .aaaa → ∀ x ∈ entriesFor fnm es name, x.type ≠ .a)) := by
  obtain ⟨c', h1, hr⟩ := lines_taken h
  rw [hc] at h1; cases h1
  have key := rel_find hr fnm name ty hty
  dsimp only at key
  cases hx : (tried (entriesFor fnm es name)).find? (fun e => e.type = ty) with
  | some e =>
    rw [hx] at key
    cases hf : find c fnm name ty with
    | none => rw [hf] at key; simp at key
    | some r =>
      rw [hf] at key; simp at key
      refine ⟨?_, ?_⟩
      · intro t n e1; cases e1
        exact ⟨key.1, e, key.2.1, key.2.2, Or.inl (used_tried hx)⟩
      · have hu := used_tried hx
        have hm := (tried_mem _ e).1 (List.mem_of_find?_eq_some hx)
        simp only [reduceCtorEq, false_iff, not_and]
        intro h'; exact absurd hu.1 (h' e hm)
  | none =>
    rw [hx] at key
    by_cases h6 : ty = .aaaa
    · rw [if_pos h6] at key
      cases hy : (tried (entriesFor fnm es name)).find? (fun e => e.type = .a) with
      | some e =>
        rw [hy] at key
        cases hf : find c fnm name ty with
        | none => rw [hf] at key; simp at key
        | some r =>
          rw [hf] at key; simp at key
          refine ⟨?_, ?_⟩
          · intro t n e1; cases e1
            exact ⟨key.1, e, key.2.1, key.2.2, Or.inr ⟨h6, by rw [h6] at hx; exact tried_none.1 hx, used_tried hy⟩⟩
          · have hu := used_tried hy
            have hm := (tried_mem _ e).1 (List.mem_of_find?_eq_some hy)
            simp only [reduceCtorEq, false_iff, not_and]
            intro _ h'; exact h' h6 e hm hu.1
      | none =>
        rw [hy] at key
        cases hf : find c fnm name ty with
        | some r => rw [hf] at key; simp at key
        | none =>
          exact ⟨by intro t n h; simp at h, iff_of_true rfl ⟨tried_none.1 hx, fun _ => tried_none.1 hy⟩⟩
    · rw [if_neg h6] at key
      cases hf : find c fnm name ty with
      | some r => rw [hf] at key; simp at key
      | none => exact ⟨by intro t n h; simp at h, iff_of_true rfl ⟨tried_none.1 hx, fun h => absurd h h6⟩⟩

/-! ### Non-vacuity -/

/-- A hosts file: two addresses for one name, an alias, an exclusion and a list. -/
def exLines : List (List Byte) :=
  [str "10.0.0.1 a.com", str "  10.0.0.2\ta.com ", str "b.com www.b.com", str "@@ x.b.com", str "<fast> c.com"]

def exEntries : List Entry :=
  [⟨str "a.com", .a, .addr (some (List.replicate 10 0 ++ [0xff, 0xff, 10, 0, 0, 1]))⟩,
   ⟨str "a.com", .a, .addr (some (List.replicate 10 0 ++ [0xff, 0xff, 10, 0, 0, 2]))⟩,
   ⟨str "www.b.com", .cname, .text (str "b.com")⟩, ⟨str "x.b.com", .excluded, .nothing⟩,
   ⟨str "c.com", .goodIpList, .text (str "fast")⟩]

theorem exWord {w : List Byte} (h : (w ≠ [] ∧ w.length ≤ 128) ∧ w.all (fun c => !isSpace c) = true) : Word w := by
  refine ⟨h.1.1, h.1.2, ?_⟩
  intro c hc hb
  have := List.all_eq_true.1 h.2 c hc
  rw [(isSpace_iff c).2 hb] at this; simp at this

theorem exLine {w n : List Byte} (s1 s2 rest : List Byte) (hw : Word w) (hn : Word n)
    (h : (s2 ≠ [] ∧ s1.all isSpace = true) ∧ s2.all isSpace = true ∧ rest.all isSpace = true) :
    Line (s1 ++ (w ++ (s2 ++ (n ++ rest)))) w n := by
  refine ⟨hw, hn, s1, s2, rest, rfl, ?_, h.1.1, ?_, ?_⟩
  · intro c hc; exact (isSpace_iff c).1 (List.all_eq_true.1 h.1.2 c hc)
  · intro c hc; exact (isSpace_iff c).1 (List.all_eq_true.1 h.2.1 c hc)
  · intro c hc; exact (isSpace_iff c).1 (List.all_eq_true.1 h.2.2 c (List.mem_of_mem_head? hc))

theorem exV4 (x y : Byte) (p q : Nat) (hx : DecDigit x p) (hy : DecDigit y q) :
    V4Text ([49, x] ++ 46 :: ([48] ++ 46 :: ([48] ++ 46 :: [y]))) (10 * 1 + p) 0 0 q :=
  .mk (.more (.one (by decide)) hx) (.one (by decide)) (.one (by decide)) (.one hy)

theorem exLines_read : Lines (str "  " :: exLines) exEntries := by
  refine .skip ⟨str "  ", [], [], rfl, by decide, ?_, by simp, by simp⟩ (.cons (e := ⟨str "a.com", .a, _⟩) ?_ (.cons (e := ⟨str "a.com", .a, _⟩) ?_
    (.cons (e := ⟨str "www.b.com", .cname, _⟩) ?_ (.cons (e := ⟨str "x.b.com", .excluded, _⟩) ?_
    (.cons (e := ⟨str "c.com", .goodIpList, _⟩) ?_ .nil)))))
  · intro c hc; exact (isSpace_iff c).1 (List.all_eq_true.1 (show (str "  ").all isSpace = true by decide) c hc)
  · exact ⟨str "10.0.0.1", exLine [] [32] [] (exWord (by decide)) (exWord (by decide)) (by decide),
      .v4 (exV4 48 49 0 1 (by decide) (by decide)) (by decide) (by decide) (by decide) (by decide)⟩
  · exact ⟨str "10.0.0.2", exLine [32, 32] [9] [32] (exWord (by decide)) (exWord (by decide)) (by decide),
      .v4 (exV4 48 50 0 2 (by decide) (by decide)) (by decide) (by decide) (by decide) (by decide)⟩
  · refine ⟨str "b.com", exLine [] [32] [] (exWord (by decide)) (exWord (by decide)) (by decide), .alias ?_ ⟨98, by decide, by decide⟩⟩
    unfold NameChar; decide
  · exact ⟨str "@@", exLine [] [32] [] (exWord (by decide)) (exWord (by decide)) (by decide), .excluded⟩
  · exact ⟨str "<fast>", exLine [] [32] [] (exWord (by decide)) (exWord (by decide)) (by decide), .list (t := str "fast") (by decide) (by decide)⟩

/-- What the example data give: the first of two addresses, and the IPv4 entry for type AAAA. -/
example : ((loadAll initCont exLines).bind (fun c => find c (fun _ _ => false) (str "a.com") .aaaa)).map (fun r => r.2.data) =
    some (.addr (some (Mapped 10 0 0 1))) := by decide +kernel
example : Used (entriesFor (fun _ _ => false) exEntries (str "a.com")) .a ⟨str "a.com", .a, .addr (some (Mapped 10 0 0 1))⟩ :=
  ⟨rfl, Or.inl (by decide +kernel)⟩
example : ((loadAll initCont exLines).bind (fun c => find c (fun _ _ => false) (str "b.com") .cname)).isNone = true := by
  decide +kernel

/-! ### What is not so -/

/-- Full claim: every line of two words whose first word says something is taken as that entry, however
long the words are. -/
def LongWordsTaken : Prop := ∀ (w n : List Byte) (d : Data) (ty : HType), w ≠ [] → n ≠ [] →
  (∀ c ∈ w ++ n, ¬ Blank c) → Says w ty d → load initCont (w ++ 32 :: n) = addNode initCont n ty d

def longWord : List Byte := List.replicate 128 97 ++ [98]

/-- The code violates it: of a first word of more than 128 bytes, the rest becomes the name. -/
theorem long_words_false : ¬ LongWordsTaken := by
  intro h
  have hb : ∀ c ∈ longWord ++ str "x.com", ¬ Blank c := by
    intro c hc hbl
    have := List.all_eq_true.1 (show (longWord ++ str "x.com").all (fun c => !isSpace c) = true by decide +kernel) c hc
    rw [(isSpace_iff c).2 hbl] at this; simp at this
  have hs : Says longWord .cname (.text longWord) := by
    refine .alias ?_ ⟨98, by decide +kernel, by decide⟩
    unfold NameChar; decide +kernel
  have := h longWord (str "x.com") _ _ (by decide +kernel) (by decide) hb hs
  have e1 := congrArg (fun r => (r.bind (fun c => find c (fun _ _ => false) (str "x.com") .cname)).isSome) this
  revert e1; decide +kernel

/-- The name that is entered instead. -/
theorem long_word_split : ((load initCont (longWord ++ 32 :: str "x.com")).bind
    (fun c => find c (fun _ _ => false) (str "b") .cname)).map (fun r => r.2.data) = some (.text (List.replicate 128 97)) := by
  decide +kernel

/-- An empty pair of marks: an uninitialised name is used (undefined behaviour). -/
theorem empty_list_undefined : load initCont (str "<> a.com") = none := by decide +kernel

/-- Full claim: a first word that is no address, alias, list or exclusion is not taken. -/
def NonsenseIgnored : Prop := ∀ line, ∀ w n, Line line w n → (∀ ty d, ¬ Says w ty d) → load initCont line = some initCont

/-- The code violates it: a bare number is taken as the address 0.0.0.0 … -/
theorem bare_number_taken : ((load initCont (str "1234 a.com")).bind
    (fun c => find c (fun _ _ => false) (str "a.com") .a)).map (fun r => r.2.data) =
      some (.addr (some (List.replicate 16 0))) := by decide +kernel

theorem nonsense_ignored_false : ¬ NonsenseIgnored := by
  intro h
  have hl : Line (str "1234 a.com") (str "1234") (str "a.com") :=
    exLine [] [32] [] (exWord (by decide)) (exWord (by decide)) (by decide)
  have := h _ _ _ hl (by
    intro ty d hs
    generalize hw : str "1234" = w at hs
    cases hs with
    | v4 h => have := (determine_v4 h).2; rw [← hw] at this; revert this; decide
    | v6 h => have := (v6_chars h).2; rw [← hw] at this; revert this; decide
    | alias _ h => rw [← hw] at h; revert h; decide
    | excluded => revert hw; decide
    | list => exact absurd (congrArg List.head? hw) (by simp; decide))
  have e := bare_number_taken
  rw [this] at e
  revert e; decide +kernel

/-- … and an incomplete address as one whose bytes were never set. -/
theorem short_address_taken : ((load initCont (str "1.2.3 a.com")).bind
    (fun c => find c (fun _ _ => false) (str "a.com") .a)).map (fun r => r.2.data) = some (.addr none) := by decide +kernel

/-- Whether a word with an underscore is an alias depends on whether it starts with a hexadecimal digit. -/
theorem underscore_alias : determineType (str "a_b.com") = .cname ∧ determineType (str "s_b.com") = .unknown := by
  decide +kernel

/-- Full claim: a name in the data applies whatever the case it is written in (DNS names compare
without case; queried names are lower-cased before they are looked up). -/
def CaseIgnored : Prop := ∀ n : List Byte, Word n → ∀ c, load initCont (str "1.2.3.4 " ++ n) = some c →
  (find c (fun _ _ => false) (n.map toLowerByte) .a).isSome = true

/-- The code violates it: an entry written with a capital letter never applies. -/
theorem case_ignored_false : ¬ CaseIgnored := by
  intro h
  cases hl : load initCont (str "1.2.3.4 " ++ str "A.com") with
  | none => revert hl; decide +kernel
  | some c =>
    have := h (str "A.com") (exWord (by decide)) c hl
    have e : ((load initCont (str "1.2.3.4 " ++ str "A.com")).bind (fun c => find c (fun _ _ => false) (str "a.com") .a)).isSome = false := by
      decide +kernel
    rw [hl] at e
    have e2 : (str "A.com").map toLowerByte = str "a.com" := by decide +kernel
    rw [e2] at this
    simp only [Option.bind_some] at e
    rw [e] at this; simp at this

end Verif.Hosts
