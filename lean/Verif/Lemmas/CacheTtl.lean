import Verif.Model.CacheTtl
import Verif.Spec.CacheTtl
import Verif.Lemmas.IpText
import Verif.Props.StringChunk
/-! Helper lemmas on the lifetime rules. -/

namespace Verif.CacheTtl
open StringChunk IpText

/-- The table entry of a rule. -/
def toRule (l : Line) : Rule :=
  let i := match l.mode with | .active => 0 | .passive => 1 | .none => 2
  match l.kind with
  | .orig => ⟨-1, 0, 0, i⟩
  | .nocache => ⟨0, 0, 0, i⟩
  | .fixed n => ⟨1, 0, n, i⟩
  | .vari a b => ⟨2, a, b, i⟩

theorem isSpace_iff (c : Byte) : isSpace c = true ↔ (c = 32 ∨ (9 ≤ c ∧ c ≤ 13)) := by
  simp [isSpace]

theorem dropWhile_blank (b w : List Byte) (hb : ∀ c ∈ b, c = 32 ∨ (9 ≤ c ∧ c ≤ 13))
    (hw : ∀ c ∈ w.head?, isSpace c = false) : (b ++ w).dropWhile isSpace = w := by
  induction b with
  | nil =>
    cases w with
    | nil => rfl
    | cons c w => simp [hw c (by simp)]
  | cons c b ih =>
    have := (isSpace_iff c).2 (hb c (by simp))
    simp only [List.cons_append, List.dropWhile_cons, this, if_true]
    exact ih (fun c hc => hb c (by simp [hc]))

theorem takeWhile_word (w r : List Byte) (hw : ∀ c ∈ w, isSpace c = false) (hr : ∀ c ∈ r.head?, isSpace c = true) :
    (w ++ r).takeWhile (fun c => !isSpace c) = w := by
  induction w with
  | nil =>
    cases r with
    | nil => rfl
    | cons c r => simp [hr c (by simp)]
  | cons c w ih =>
    simp only [List.cons_append, List.takeWhile_cons, hw c (by simp), Bool.not_false, if_true]
    rw [ih (fun c hc => hw c (by simp [hc]))]

theorem Word.space {w : List Byte} (h : Word w) : ∀ c ∈ w, isSpace c = false := by
  intro c hc
  have := h.2 c hc
  rw [← isSpace_iff] at this
  simpa using this

theorem token_word (n : Nat) (b w r : List Byte) (hb : ∀ c ∈ b, c = 32 ∨ (9 ≤ c ∧ c ≤ 13)) (hw : Word w)
    (hl : w.length ≤ n) (hr : ∀ c ∈ r.head?, isSpace c = true) : token n (b ++ w ++ r) = some (w, r) := by
  obtain ⟨c, w', rfl⟩ := List.exists_cons_of_ne_nil hw.1
  have hs := hw.space
  unfold token
  simp only
  rw [List.append_assoc, dropWhile_blank b _ hb (by intro c' h; simp at h; subst h; exact hs _ (by simp)),
    takeWhile_word _ r hs hr, List.take_of_length_le hl, if_neg (by simp), List.drop_left]

theorem decNum_word {s : List Byte} {n : Nat} (h : DecNum s n) : s ≠ [] ∧ ∀ c ∈ s, 48 ≤ c ∧ c ≤ 57 := by
  have key : ∀ {c : Byte} {d : Nat}, DecDigit c d → 48 ≤ c ∧ c ≤ 57 := by
    intro c d hd
    unfold DecDigit at hd
    rw [UInt8.le_iff_toNat_le, UInt8.le_iff_toNat_le]
    simp only [UInt8.reduceToNat]
    omega
  induction h with
  | one h => simp only [ne_eq, List.cons_ne_self, not_false_eq_true, List.mem_singleton, forall_eq, true_and]; exact key h
  | more hs h ih =>
    refine ⟨by simp, ?_⟩
    intro c hc
    rcases List.mem_append.1 hc with hc | hc
    · exact ih.2 c hc
    · simp only [List.mem_singleton] at hc; subst hc; exact key h

theorem digit_not_space : ∀ c : Byte, 48 ≤ c ∧ c ≤ 57 → ¬ (c = 32 ∨ (9 ≤ c ∧ c ≤ 13)) := by
  intro c h hc
  simp only [UInt8.le_iff_toNat_le] at h hc
  simp only [UInt8.reduceToNat] at h hc
  rcases hc with rfl | hc
  · simp at h
  · omega

theorem scanU_num {s rest : List Byte} {n : Nat} (h : DecNum s n) (hn : n < 4294967296)
    (hr : ∀ c ∈ rest.head?, decVal c = none) : scanU (s ++ rest) = some (n, rest) := by
  obtain ⟨ds, hds, hv, hne⟩ := decNum_digits h
  have hsp := spanDigits_append decVal s ds rest hds hr
  have hs0 := decNum_word h
  have hd : ∀ c ∈ (s ++ rest).head?, isSpace c = false ∧ c ≠ 45 ∧ c ≠ 43 := by
    intro c hc
    obtain ⟨a, t, rfl⟩ := List.exists_cons_of_ne_nil hs0.1
    simp only [List.cons_append, List.head?_cons, Option.mem_def, Option.some.injEq] at hc
    subst hc
    have := hs0.2 a (by simp)
    refine decVal_head a ?_
    unfold decVal
    rw [if_pos this]; simp
  unfold scanU
  rw [sign_plain hd]
  simp only [hsp]
  cases ds with
  | nil => exact absurd rfl hne
  | cons a t =>
    simp only [hv]
    rw [if_neg (by omega)]
    simp only [Bool.false_eq_true, if_false]
    rw [Nat.mod_eq_of_lt hn]


theorem decNum_isWord {s : List Byte} {n : Nat} (h : DecNum s n) : Word s :=
  ⟨(decNum_word h).1, fun c hc => digit_not_space c ((decNum_word h).2 c hc)⟩

theorem Blank.head {b : List Byte} (h : Blank b) (r : List Byte) : ∀ c ∈ (b ++ r).head?, isSpace c = true := by
  obtain ⟨x, b', rfl⟩ := List.exists_cons_of_ne_nil h.1
  intro c hc
  simp only [List.cons_append, List.head?_cons, Option.mem_def, Option.some.injEq] at hc
  subst hc
  exact (isSpace_iff _).2 (h.2 _ (by simp))

theorem token_none (n : Nat) : token n [] = none := by simp [token]

/-- The two first words of a rule. -/
theorem readRule_words {d b w r : List Byte} (hd : Word d) (hl : d.length ≤ 127) (hb : Blank b) (hw : Word w)
    (hlw : w.length ≤ 15) (hr : ∀ c ∈ r.head?, isSpace c = true) :
    token 127 (d ++ b ++ (w ++ r)) = some (d, b ++ (w ++ r)) ∧ token 15 (b ++ (w ++ r)) = some (w, r) := by
  constructor
  · have := token_word 127 [] d (b ++ (w ++ r)) (by simp) hd hl (hb.head _)
    simpa using this
  · have := token_word 15 b w r hb.2 hw hlw hr
    simpa using this

theorem scanVari_num {s t : List Byte} {m n : Nat} (hs : DecNum s m) (hm : m < 4294967296) (ht : DecNum t n)
    (hn : n < 4294967296) : scanVari (s ++ str "x+" ++ t) = (m, n) := by
  have e : str "x+" = [120, 43] := by decide +kernel
  have h1 := scanU_num (rest := 120 :: 43 :: t) hs hm (by simp [decVal])
  have h2 := scanU_num (rest := []) ht hn (by simp)
  rw [List.append_nil] at h2
  unfold scanVari
  rw [e, List.append_assoc]
  simp only [List.cons_append, List.nil_append, h1, h2]
  rfl

theorem vari_word {s t : List Byte} {m n : Nat} (hs : DecNum s m) (ht : DecNum t n) : Word (s ++ str "x+" ++ t) := by
  have e : str "x+" = [120, 43] := by decide +kernel
  have h1 := decNum_isWord hs
  have h2 := decNum_isWord ht
  refine ⟨by simp [h1.1], ?_⟩
  intro c hc
  rw [e] at hc
  simp only [List.mem_append, List.mem_cons, List.not_mem_nil, or_false] at hc
  rcases hc with (hc | rfl | rfl) | hc
  · exact h1.2 c hc
  · decide
  · decide
  · exact h2.2 c hc

theorem readRule_text {t : List Byte} {l : Line} (h : LineText t l) : readRule t = .rule l.domain (toRule l) := by
  cases h with
  | @mk d b k m kind hd hl hb hk =>
    cases hk with
    | orig =>
      obtain ⟨h1, h2⟩ := readRule_words (r := []) (w := m.text ++ str "orig") hd hl hb (by cases m <;> decide +kernel)
        (by cases m <;> decide +kernel) (by simp)
      rw [List.append_nil] at h1 h2
      unfold readRule
      simp only [h1, h2]
      cases m <;> rfl
    | nocache =>
      obtain ⟨h1, h2⟩ := readRule_words (r := []) (w := m.text ++ str "nocache") hd hl hb (by cases m <;> decide +kernel)
        (by cases m <;> decide +kernel) (by simp)
      rw [List.append_nil] at h1 h2
      unfold readRule
      simp only [h1, h2]
      cases m <;> rfl
    | @fixed b2 s n hb2 hs hn hl2 =>
      obtain ⟨h1, h2⟩ := readRule_words (r := b2 ++ s) (w := m.text ++ str "fixed") hd hl hb (by cases m <;> decide +kernel)
        (by cases m <;> decide +kernel) (hb2.head s)
      have h3 := token_word 63 b2 s [] hb2.2 (decNum_isWord hs) hl2 (by simp)
      have h4 := scanU_num (rest := []) hs hn (by simp)
      rw [List.append_nil] at h3 h4
      have e : m.text ++ str "fixed" ++ (b2 ++ s) = m.text ++ (str "fixed" ++ b2 ++ s) := by simp
      rw [e] at h1 h2
      unfold readRule
      simp only [h1, h2, h3, Option.map_some]
      cases m
      · show Read.rule d ⟨1, 0, ((scanU s).map Prod.fst).getD 0, 0⟩ = _
        rw [h4]; rfl
      · show Read.rule d ⟨1, 0, ((scanU s).map Prod.fst).getD 0, 1⟩ = _
        rw [h4]; rfl
      · show Read.rule d ⟨1, 0, ((scanU s).map Prod.fst).getD 0, 2⟩ = _
        rw [h4]; rfl
    | @vari b2 s t m1 n1 hb2 hs hm ht hn hl2 =>
      obtain ⟨h1, h2⟩ := readRule_words (r := b2 ++ (s ++ str "x+" ++ t)) (w := m.text ++ str "vari") hd hl hb
        (by cases m <;> decide +kernel) (by cases m <;> decide +kernel) (hb2.head _)
      have h3 := token_word 63 b2 (s ++ str "x+" ++ t) [] hb2.2 (vari_word hs ht) hl2 (by simp)
      have h4 := scanVari_num hs hm ht hn
      rw [List.append_nil] at h3
      have e : m.text ++ str "vari" ++ (b2 ++ (s ++ str "x+" ++ t)) = m.text ++ (str "vari" ++ b2 ++ (s ++ str "x+" ++ t)) := by
        simp
      rw [e] at h1 h2
      unfold readRule
      simp only [h1, h2, h3, Option.map_some]
      cases m
      · show Read.rule d ⟨2, (scanVari (s ++ str "x+" ++ t)).1, (scanVari (s ++ str "x+" ++ t)).2, 0⟩ = _
        rw [h4]; rfl
      · show Read.rule d ⟨2, (scanVari (s ++ str "x+" ++ t)).1, (scanVari (s ++ str "x+" ++ t)).2, 1⟩ = _
        rw [h4]; rfl
      · show Read.rule d ⟨2, (scanVari (s ++ str "x+" ++ t)).1, (scanVari (s ++ str "x+" ++ t)).2, 2⟩ = _
        rw [h4]; rfl

/-- The addition a rule asks for. -/
def toOp (l : Line) : Op Rule := .addDomain l.domain (some (toRule l))

theorem add_toRule (c : Chunk Rule) (l : Line) :
    add c l.domain (toRule l).state (toRule l).coeff (toRule l).incr (toRule l).infection = c.step (toOp l) := by
  unfold add toOp Chunk.step toRule
  cases l.kind <;> rfl

theorem addLines_eq {ts : List (List Byte)} {ls : List Line} (h : LinesText ts ls) (c : Chunk Rule) :
    addLines c ts = some (c.run (ls.map toOp)) := by
  induction h generalizing c with
  | nil => rfl
  | @cons t l ts ls h hs ih =>
    simp only [addLines, readRule_text h]
    rw [add_toRule, ih]
    rfl

theorem initRules_eq {lines : Option (List (List Byte))} {ls : List Line} (h : LinesText (lines.getD []) ls)
    (override multiple : Int) :
    initRules lines override multiple = some (
      if lines ≠ none ∨ override > -1 ∨ multiple > 1 then
        some ((StringChunk.init bkdrHash).run ((withGeneral ls override multiple).map toOp))
      else none) := by
  have e : str "*" = [42] := by decide +kernel
  unfold initRules
  by_cases hc : lines ≠ none ∨ override > -1 ∨ multiple > 1
  · rw [if_pos hc, if_pos hc, addLines_eq h]
    unfold withGeneral
    by_cases h1 : override > -1
    · have h1' : 0 ≤ override := by omega
      simp only [h1, if_true, h1', List.map_append, Chunk.run, List.foldl_append, e]
      rfl
    · have h1' : ¬ 0 ≤ override := by omega
      by_cases h2 : multiple > 1
      · have h2' : 1 < multiple := h2
        simp only [h1, if_false, h1', h2, if_true, List.map_append, Chunk.run, List.foldl_append, e]
        rfl
      · have h2' : ¬ 1 < multiple := h2
        simp only [h1, if_false, h1', h2]
  · rw [if_neg hc, if_neg hc]

/-! ### Lookups -/

theorem toOp_entry (l : Line) : (toOp l).entry = ⟨l.dom, some (toRule l)⟩ := rfl

theorem plain_lines (ls : List Line) :
    plain (ls.map toOp) = (ls.filter (fun l => !decide (IsPattern l.dom))).map (fun l => (⟨l.dom, some (toRule l)⟩ : Entry Rule)) := by
  unfold plain
  rw [List.map_map, List.filter_map]
  rfl

theorem patterns_lines (ls : List Line) :
    patterns (ls.map toOp) = (ls.filter (fun l => decide (IsPattern l.dom))).map (fun l => (⟨l.dom, some (toRule l)⟩ : Entry Rule)) := by
  unfold patterns
  rw [List.map_map, List.filter_map]
  rfl

theorem covers_same {a b n : List Byte} (ha : Covers a n) (hb : Covers b n) (h : a.length = b.length) : a = b := by
  have hs : ∀ {a : List Byte}, Covers a n → a <:+ n := by
    rintro a (rfl | ⟨s, _, rfl⟩)
    · exact List.suffix_rfl
    · exact ⟨s ++ [46], by simp⟩
  have := List.suffix_of_suffix_length_le (hs ha) (hs hb) (by omega)
  exact this.eq_of_length h

theorem lastWith_unique {δ : Type} {l : List (Entry δ)} {P : Entry δ → Prop} {e f : Entry δ} (h1 : LastWith l P e)
    (h2 : LastWith l P f) : e = f := by
  obtain ⟨b1, a1, e1, p1, n1⟩ := h1
  obtain ⟨b2, a2, e2, p2, n2⟩ := h2
  have h := e1.symm.trans e2
  rcases List.append_eq_append_iff.1 h with ⟨m, hm1, hm2⟩ | ⟨m, hm1, hm2⟩
  · cases m with
    | nil => simp at hm2; exact hm2.1
    | cons x m =>
      simp only [List.cons_append, List.cons.injEq] at hm2
      exact absurd p2 (n1 f (by rw [hm2.2]; simp))
  · cases m with
    | nil => simp at hm2; exact hm2.1.symm
    | cons x m =>
      simp only [List.cons_append, List.cons.injEq] at hm2
      exact absurd p1 (n2 e (by rw [hm2.2]; simp))

theorem get_none_table (fnm) (s behind : List Byte) : get none fnm s behind = none := rfl

theorem get_governed {ls : List Line} {fnm : List Byte → List Byte → Bool} {name behind : List Byte} {l : Line}
    (hn : name ≠ []) (h : Governs ls fnm name l) :
    get (some ((StringChunk.init bkdrHash).run (ls.map toOp))) fnm name behind = some (toRule l) := by
  unfold get
  simp only [run_hash]
  show (((StringChunk.init bkdrHash).run (ls.map toOp)).domainMatch fnm name (bkdrHash name) (fun _ => true) behind).bind id = _
  unfold Chunk.domainMatch
  rcases h with ⟨h1, h2, ⟨b, a, hls, hlast⟩, hlong⟩ | ⟨h1, h2, h3, b, a, hls, hfirst⟩
  · have hmem : (⟨l.dom, some (toRule l)⟩ : Entry Rule) ∈ plain (ls.map toOp) := by
      rw [plain_lines]
      exact List.mem_map.2 ⟨l, List.mem_filter.2 ⟨by rw [hls]; simp, by simpa using h1⟩, rfl⟩
    have hs := (domain_match_iff bkdrHash (ls.map toOp) name behind (fun _ => true) hn).2
      ⟨_, hmem, h2, rfl⟩
    obtain ⟨d, hd⟩ := Option.isSome_iff_exists.1 hs
    obtain ⟨e, he1, he2, he3, he4⟩ := domain_match_most_specific bkdrHash (ls.map toOp) name behind (fun _ => true) d hn hd
    have hle : l.dom.length ≤ e.str.length := he4 _ hmem h2 rfl
    have hem : e ∈ plain (ls.map toOp) := by
      obtain ⟨b', a', hb, _⟩ := he3; rw [hb]; simp
    rw [plain_lines] at hem
    obtain ⟨x, hx, hxe⟩ := List.mem_map.1 hem
    have hx' := List.mem_filter.1 hx
    have hge : e.str.length ≤ l.dom.length := by
      have := hlong x hx'.1 (by simpa using hx'.2) (by rw [← hxe] at he2; exact he2)
      rw [← hxe]; exact this
    have hstr := covers_same he2 h2 (by omega)
    have hl' : LastWith (plain (ls.map toOp)) (fun x => x.str = e.str ∧ (fun _ => true) x.data = true) ⟨l.dom, some (toRule l)⟩ := by
      rw [plain_lines, hls, List.filter_append, List.filter_cons_of_pos (by simpa using h1), List.map_append, List.map_cons]
      refine ⟨_, _, rfl, ⟨hstr.symm, rfl⟩, ?_⟩
      intro y hy hc
      obtain ⟨z, hz, rfl⟩ := List.mem_map.1 hy
      exact hlast z (List.mem_filter.1 hz).1 (hc.1.trans hstr)
    have := lastWith_unique he3 hl'
    rw [hd]
    subst this
    simp only at he1 ⊢
    rw [← he1]; rfl
  · have hnone : ((StringChunk.init bkdrHash).run (ls.map toOp)).domainMatchNoWild name (bkdrHash name) (fun _ => true) behind = none := by
      rw [← Option.not_isSome_iff_eq_none, domain_match_iff bkdrHash (ls.map toOp) name behind (fun _ => true) hn]
      rintro ⟨e, he, hc, _⟩
      rw [plain_lines] at he
      obtain ⟨x, hx, rfl⟩ := List.mem_map.1 he
      have hx' := List.mem_filter.1 hx
      exact h1 x hx'.1 (by simpa using hx'.2) hc
    rw [hnone]
    simp only [pattern_first_added]
    rw [patterns_lines, hls, List.filter_append, List.filter_cons_of_pos (by simpa using h2), List.map_append, List.map_cons,
      List.find?_append]
    have hb : ((b.filter (fun l => decide (IsPattern l.dom))).map (fun l => (⟨l.dom, some (toRule l)⟩ : Entry Rule))).find?
        (fun e => fnm e.str name && (fun _ => true) e.data) = none := by
      rw [List.find?_eq_none]
      intro e he
      obtain ⟨x, hx, rfl⟩ := List.mem_map.1 he
      have hx' := List.mem_filter.1 hx
      have := hfirst x hx'.1 (by simpa using hx'.2)
      simp [this]
    rw [hb]
    simp [h3]

theorem get_ungoverned {ls : List Line} {fnm : List Byte → List Byte → Bool} {name behind : List Byte}
    (hn : name ≠ []) (h : Ungoverned ls fnm name) :
    get (some ((StringChunk.init bkdrHash).run (ls.map toOp))) fnm name behind = none := by
  unfold get
  simp only [run_hash]
  show (((StringChunk.init bkdrHash).run (ls.map toOp)).domainMatch fnm name (bkdrHash name) (fun _ => true) behind).bind id = _
  have : ((StringChunk.init bkdrHash).run (ls.map toOp)).domainMatch fnm name (bkdrHash name) (fun _ => true) behind = none := by
    rw [← Option.not_isSome_iff_eq_none, domain_match_full_iff bkdrHash (ls.map toOp) fnm name behind (fun _ => true) hn]
    rintro (⟨e, he, hc, _⟩ | ⟨e, he, hc, _⟩)
    · rw [plain_lines] at he
      obtain ⟨x, hx, rfl⟩ := List.mem_map.1 he
      have hx' := List.mem_filter.1 hx
      exact (h x hx'.1).1 (by simpa using hx'.2) hc
    · rw [patterns_lines] at he
      obtain ⟨x, hx, rfl⟩ := List.mem_map.1 he
      have hx' := List.mem_filter.1 hx
      have := (h x hx'.1).2 (by simpa using hx'.2)
      exact absurd hc (by simp [this])
  rw [this]; rfl

/-- The lifetime a rule gives, when it fits. -/
theorem lifetime_toRule (l : Line) (x : Nat) (h : ∀ v ∈ l.kind.ttl x, v < 4294967296) :
    lifetime (some (toRule l)) x = (l.kind.ttl x).getD 0 := by
  unfold lifetime toRule
  cases hk : l.kind with
  | orig => simp [Kind.ttl]
  | nocache => simp [Kind.ttl]
  | fixed n =>
    rw [hk] at h
    have := h n rfl
    simp [Kind.ttl, Nat.mod_eq_of_lt this]
  | vari a b =>
    rw [hk] at h
    have := h _ rfl
    simp [Kind.ttl, Nat.mod_eq_of_lt this]

theorem toRule_infection (l : Line) :
    (l.mode = .active → (toRule l).infection = 0) ∧ (l.mode = .passive → (toRule l).infection = 1) ∧
    (l.mode = .none → (toRule l).infection = 2) := by
  unfold toRule
  cases l.mode <;> cases l.kind <;> simp

end Verif.CacheTtl
