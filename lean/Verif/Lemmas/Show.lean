import Verif.Model.Show
import Verif.Spec.Show
import Verif.Lemmas.ReplaceStr
import Verif.Lemmas.ParserWalk
import Verif.Lemmas.Statistic
import Verif.Props.Parser
import Verif.Props.Name
/-! The text of a message: one line, and that the buffer is not overrun. -/

namespace Verif.Show
open Parser Name Message Generator ReplaceStr

theorem replaced_one {ori des a b : List Byte} (ha : ∀ i, i < a.length → ¬ Occurs ori (a ++ (ori ++ b)) i) (hb : ∀ i, ¬ Occurs ori b i) :
    Replaced ori des (a ++ (ori ++ b)) (a ++ (des ++ b)) 1 := .one a b b 0 ha (.none b hb)

theorem not_occurs {c : Byte} {o s : List Byte} {i : Nat} (h : s[i]? ≠ some c) : ¬ Occurs (c :: o) s i := by
  rintro ⟨a, b, rfl, rfl⟩
  simp at h

/-- The two replacements, one after the other. -/
theorem fill_eq {pre : List Byte} (hp : (37 : Byte) ∉ pre) {cap : Nat} {left : Int} (hl : left ≤ cap) (h11 : 11 ≤ cap) (value : Res) :
    fill cap left pre value =
      if (pre.length : Int) + 9 ≤ left then
        match value with
        | .error e => .error e
        | .ok none => .ok none
        | .ok (some v) => .ok (if (pre.length : Int) + v.length + 7 ≤ left then some (Field.line (pre, v)) else none)
      else .ok none := by
  have hf : format = str "   " ++ (str "%t" ++ str ": %v\n") := by decide
  have h1 : Replaced (str "%t") pre format (str "   " ++ (pre ++ str ": %v\n")) 1 := by
    rw [hf]
    refine replaced_one ?_ ?_
    · intro i hi
      have : strstr (str "%t") (str "   " ++ (str "%t" ++ str ": %v\n")) = some 3 := by decide +kernel
      exact (strstr_some this).2 i hi
    · exact strstr_none.mp (by decide +kernel)
  obtain ⟨r, k, hr, he⟩ := replaceChecked_ok (s := format) (ori := str "%t") (des := pre) (by decide) cap left hl (by rw [show format.length = 10 by decide]; omega)
  obtain ⟨rfl, -⟩ := hr.unique h1
  have hlen : (str "   " ++ (pre ++ str ": %v\n")).length = pre.length + 8 := by simp [str]
  unfold fill
  rw [if_neg (by rw [show format.length = 10 by decide]; omega), he, hlen]
  by_cases hc : (pre.length : Int) + 9 ≤ left
  · rw [if_pos hc, if_pos (by omega)]
    simp only
    cases value with
    | error e => rfl
    | ok o =>
      cases o with
      | none => rfl
      | some v =>
        have h2 : Replaced (str "%v") v (str "   " ++ (pre ++ str ": %v\n")) ((str "   " ++ (pre ++ str ": ")) ++ (v ++ str "\n")) 1 := by
          have e : str "   " ++ (pre ++ str ": %v\n") = (str "   " ++ (pre ++ str ": ")) ++ (str "%v" ++ str "\n") := by simp [str]
          rw [e]
          refine replaced_one ?_ (strstr_none.mp (by decide +kernel))
          intro i hi
          refine not_occurs ?_
          rw [List.getElem?_append_left hi]
          intro hh
          have := List.mem_of_getElem? hh
          simp only [List.mem_append] at this
          rcases this with h | h | h
          · revert h; decide
          · exact hp h
          · revert h; decide
        obtain ⟨r2, k2, hr2, he2⟩ := replaceChecked_ok (s := str "   " ++ (pre ++ str ": %v\n")) (ori := str "%v") (des := v) (by decide) cap left hl (by rw [hlen]; omega)
        obtain ⟨rfl, -⟩ := hr2.unique h2
        have hlen2 : ((str "   " ++ (pre ++ str ": ")) ++ (v ++ str "\n")).length = pre.length + v.length + 6 := by simp [str]; omega
        simp only [he2, hlen2]
        by_cases hc2 : (pre.length : Int) + v.length + 7 ≤ left
        · simp only [if_pos hc2]
          rw [if_pos (by omega)]
          simp [Field.line]
        · simp only [if_neg hc2]
          rw [if_neg (by omega)]
  · rw [if_neg hc, if_neg (by omega)]

theorem line_length (f : Field) : f.line.length = f.1.length + f.2.length + 6 := by
  simp [Field.line, str]; omega

/-! ### The buffer is not overrun -/

/-- No overrun, and what is returned fits. -/
def Good (left : Int) (r : Res) : Prop := r ≠ .error .overrun ∧ ∀ t, r = .ok (some t) → (t.length : Int) + 1 ≤ left

theorem good_none (left : Int) : Good left (.ok none) := ⟨by simp, by simp⟩

theorem fill_good {pre : List Byte} (hp : (37 : Byte) ∉ pre) {cap : Nat} {left : Int} (hl : left ≤ cap) (h11 : 11 ≤ cap) {value : Res}
    (hv : value ≠ .error .overrun) : Good left (fill cap left pre value) := by
  rw [fill_eq hp hl h11]
  split
  · split
    · rename_i e
      exact ⟨by simpa using hv, by simp⟩
    · exact good_none _
    · split
      · refine ⟨by simp, ?_⟩
        intro t ht
        simp only [Except.ok.injEq, Option.some.injEq] at ht
        subst ht
        rw [line_length]; simp; omega
      · exact good_none _
  · exact good_none _

theorem fillChecked_good {pre : List Byte} (hp : (37 : Byte) ∉ pre) {cap : Nat} {left : Int} (hl : left ≤ cap) {value : Res}
    (hv : value ≠ .error .overrun) : Good left (fillChecked cap left pre value) := by
  unfold fillChecked
  split
  · exact good_none _
  · rename_i h
    rw [show format.length = 10 by decide] at h
    exact fill_good hp hl (by omega) hv

theorem nameAt_safe (b : List Byte) (len fuel p : Nat) : nameAt b len fuel p ≠ .error .overrun := by
  unfold nameAt
  have := (decode_never_overruns (Msg.memAt b) len p 254 fuel).1
  split <;> simp_all

theorem fieldValue_safe (b : List Byte) (len fuel p : Nat) (k : Kind) : fieldValue b len fuel p k ≠ .error .overrun := by
  cases k with
  | name =>
    show valueName b len fuel p ≠ _
    unfold valueName
    have := nameAt_safe b len fuel p
    split <;> simp_all
  | int16 => show value16 b p ≠ _; unfold value16; split <;> simp
  | int32 => show value32 b p ≠ _; unfold value32; split <;> simp

theorem rrString_safe (b : List Byte) (row dl cap off : Nat) (acc : List Byte) (h1 : dl ≤ cap) (h2 : acc.length < cap) :
    rrString b row dl cap off acc ≠ .error .overrun := by
  fun_induction rrString b row dl cap off acc with
  | case1 => simp
  | case2 => simp
  | case3 => simp
  | case4 => omega
  | case5 off acc h n hn h3 h4 h5 ih =>
    refine ih ?_
    simp only [List.length_append, List.length_take, List.length_drop]
    omega
  | case6 => omega
  | case7 => simp

theorem fieldsLoop_good {fs : List (List Byte × Kind)} (hfs : ∀ f ∈ fs, (37 : Byte) ∉ f.1) (b : List Byte) (len fuel : Nat) :
    ∀ (cap : Nat) (left : Int) (p : Nat) (data : Int) (acc : List Byte), left ≤ cap → 1 ≤ left →
      Good (left + acc.length) (fieldsLoop b len fuel cap left p data acc fs) := by
  induction fs with
  | nil =>
    intro cap left p data acc _ h
    refine ⟨by simp [fieldsLoop], ?_⟩
    intro t ht
    simp only [fieldsLoop, Except.ok.injEq, Option.some.injEq] at ht
    subst ht; omega
  | cons f fs ih =>
    obtain ⟨pre, k⟩ := f
    intro cap left p data acc hl h1
    unfold fieldsLoop
    split
    · have hg := fillChecked_good (hfs (pre, k) (by simp)) hl (fieldValue_safe b len fuel p k)
      split
      · rename_i e he
        rw [he] at hg
        exact ⟨by simpa using hg.1, by simp⟩
      · exact good_none _
      · rename_i t ht
        have := hg.2 t ht
        split
        · exact good_none _
        · have := ih (fun f hf => hfs f (by simp [hf])) (cap - t.length) (left - t.length) (p + fieldSize b len fuel p k)
            (data - fieldSize b len fuel p k) (acc ++ t) (by omega) (by omega)
          rw [show left - (t.length : Int) + ((acc ++ t).length : Nat) = left + acc.length by simp; omega] at this
          exact this
    · refine ⟨by simp, ?_⟩
      intro t ht
      simp only [Except.ok.injEq, Option.some.injEq] at ht
      subst ht; omega

theorem dec_no_percent (n : Nat) : (37 : Byte) ∉ IpText.dec n := fun h =>
  absurd (Statistic.dec_digits n 37 h).1 (by decide)

theorem rawLabel_no_percent (t : Nat) : (37 : Byte) ∉ rawLabel t := by
  unfold rawLabel
  split
  · rename_i s hs
    have h : ∀ e ∈ typeList, (37 : Byte) ∉ e.2 := by decide +kernel
    unfold typeName at hs
    rw [Option.map_eq_some_iff] at hs
    obtain ⟨e, he, rfl⟩ := hs
    exact h e (List.mem_of_find?_eq_some he)
  · simp only [List.mem_append, not_or]
    exact ⟨by decide, dec_no_percent t, by decide⟩

theorem textify_good (b : List Byte) (len fuel cap : Nat) (left : Int) (type klass row dl : Nat) (hl : left ≤ cap) (h11 : 11 ≤ cap)
    (h1 : 1 ≤ left) : Good left (textify b len fuel cap left type klass row dl) := by
  have h0 : ∀ r, Good (left + (([] : List Byte).length : Nat)) r → Good left r := by simp
  unfold textify
  split
  · exact good_none _
  split
  · refine fillChecked_good (by decide) hl ?_
    unfold value4; split <;> simp
  split
  · refine fillChecked_good (by decide) hl ?_
    unfold value6; split <;> simp
  split
  · exact fillChecked_good (rawLabel_no_percent _) hl (fieldValue_safe b len fuel row .name)
  split
  · refine fillChecked_good (by decide) hl ?_
    unfold valueTxt
    exact rrString_safe _ _ _ _ _ _ (by split <;> omega) (by simp; split <;> omega)
  split
  · exact h0 _ (fieldsLoop_good (by decide) b len fuel cap left row dl [] hl h1)
  split
  · exact h0 _ (fieldsLoop_good (by decide) b len fuel cap left row dl [] hl h1)
  · exact fill_good (rawLabel_no_percent _) hl h11 (by simp)

theorem dec_length (k : Nat) : ∀ n, n < 10 ^ (k + 1) → (IpText.dec n).length ≤ k + 1 := by
  induction k with
  | zero => intro n h; unfold IpText.dec; rw [if_pos (by omega)]; simp
  | succ k ih =>
    intro n h
    unfold IpText.dec
    split
    · simp
    · rw [Nat.pow_succ] at h
      have := ih (n / 10) (by omega)
      simp; omega

theorem more_length {n : Int} {k : Nat} (h0 : 0 ≤ n) (h : n < 10 ^ (k + 1)) : (more n).length ≤ 18 + k := by
  have := dec_length k n.natAbs (by
    have : ((n.natAbs : Nat) : Int) < ((10 ^ (k + 1) : Nat) : Int) := by rw [Int.natAbs_of_nonneg h0]; simpa using h
    omega)
  unfold more decInt
  rw [if_neg (by omega)]
  simp [str]; omega

theorem look_none {b : List Byte} {len : Nat} {c : Counts} {it it' : Itr} {p n : Nat} (h : look b len c it p n = some (it', none)) :
    it'.pos = none := by
  unfold look at h
  split at h
  · simp at h; simp [← h]
  · split at h
    · simp at h
    · split at h
      · dsimp only at h
        split at h
        · split at h
          · split at h <;> simp at h
          · simp at h
        · simp at h; simp [← h]
      · simp at h

theorem next_none {b : List Byte} {len : Nat} {c : Counts} {it it' : Itr} (h : next b len c it = some (it', none)) : it'.pos = none := by
  unfold next at h
  split at h
  · exact look_none h
  · split at h
    · split at h
      · simp at h
      · exact look_none h
    · simp at h; simp [← h]

/-- `ANACount` counts the records from the next one on. -/
def Counted (c : Counts) (it : Itr) (ana : Int) : Prop :=
  (it.pos = none ∧ (0 < c.qd ∨ ana = c.all)) ∨ (∃ p, it.pos = some p ∧ ana = (c.all : Int) - it.num)

theorem gotoLoop_counted {b : List Byte} {len : Nat} {c : Counts} (hq : 0 < c.qd) {ana : Int} (ha : ana = (c.all : Int) - c.qd) :
    ∀ (n : Nat) (it it' : Itr), gotoLoop b len c n it = some it' → Counted c it' ana := by
  intro n
  induction n with
  | zero => intro it it' h; simp [gotoLoop] at h
  | succ n ih =>
    intro it it' h
    unfold gotoLoop at h
    split at h
    · simp at h
    · rename_i it2 he
      simp at h; subst h
      exact .inl ⟨next_none he, .inl hq⟩
    · rename_i it2 q he
      split at h
      · rename_i hn
        simp at h; subst h
        have hqf : c.qFirst = 1 := by unfold Counts.qFirst; rw [if_neg (by omega)]
        exact .inr ⟨q, (next_some he).1, by rw [ha]; omega⟩
      · exact ih _ _ h

theorem gotoAnswers_counted {b : List Byte} {len : Nat} {c : Counts} {it : Itr} (h : gotoAnswers b len c Itr.init = some it) :
    Counted c it ((c.an : Int) + c.ns + c.ar) := by
  unfold gotoAnswers at h
  dsimp only at h
  by_cases hq : c.qd = 0
  · rw [if_neg (by unfold Counts.qFirst; rw [if_pos hq]; omega)] at h
    simp at h; subst h
    exact .inl ⟨rfl, .inr (by unfold Counts.all; omega)⟩
  · rw [if_pos (by unfold Counts.qFirst; rw [if_neg hq]; omega)] at h
    exact gotoLoop_counted (by omega) (by unfold Counts.all; omega) _ _ _ h

theorem counted_next {b : List Byte} {len : Nat} {c : Counts} {it it' : Itr} {ana : Int} {q : Nat} (hc : Counted c it ana)
    (h : next b len c it = some (it', some q)) (hp : it'.purpose ≠ .question) (hpu : it'.purpose = determinePurpose c it'.num) :
    1 ≤ ana ∧ Counted c it' (ana - 1) := by
  obtain ⟨h1, -, h3, h4, h5⟩ := next_some h
  rcases hc with ⟨h6, h7⟩ | ⟨p, h6, h7⟩
  · obtain ⟨h8, -⟩ := h4 h6
    rcases h7 with h7 | h7
    · exfalso
      apply hp
      rw [hpu, h8, purpose_correct c h7]
      unfold sectionOf
      rw [if_neg (by omega), if_pos (by omega)]
    · exact ⟨by omega, .inr ⟨q, h1, by omega⟩⟩
  · obtain ⟨h8, -⟩ := h5 p h6
    exact ⟨by omega, .inr ⟨q, h1, by omega⟩⟩

theorem look_purpose {b : List Byte} {len : Nat} {c : Counts} {it it' : Itr} {p n q : Nat} (h : look b len c it p n = some (it', some q)) :
    it'.purpose = determinePurpose c it'.num := by
  unfold look at h
  split at h
  · simp at h
  · split at h
    · simp at h
    · split at h
      · dsimp only at h
        split at h
        · split at h
          · split at h
            · simp at h
            · simp at h; simp [← h.1]
          · simp at h; simp [← h.1]
        · simp at h
      · simp at h

theorem next_purpose {b : List Byte} {len : Nat} {c : Counts} {it it' : Itr} {q : Nat} (h : next b len c it = some (it', some q)) :
    it'.purpose = determinePurpose c it'.num := by
  unfold next at h
  split at h
  · exact look_purpose h
  · split at h
    · split at h
      · simp at h
      · exact look_purpose h
    · simp at h

theorem showLoop_safe {b : List Byte} {len fuel cap : Nat} {c : Counts} {k : Nat} (hall : ((c.an + c.ns + c.ar : Nat) : Int) < 10 ^ (k + 1))
    (n : Nat) : ∀ (it : Itr) (acc : List Byte) (left ana : Int), Counted c it ana → ana ≤ ((c.an + c.ns + c.ar : Nat) : Int) →
      (acc.length : Int) + left + max 22 (18 + k) ≤ cap → 1 ≤ left →
      showLoop b len fuel cap c n it acc left ana ≠ .error .overrun := by
  induction n with
  | zero => intros; simp [showLoop]
  | succ n ih =>
    intro it acc left ana hc ha hcap h1
    unfold showLoop
    split
    · simp
    · simp
    · rename_i it' p he
      split
      · simp
      · rename_i hpu
        rw [not_or] at hpu
        obtain ⟨hana, hc'⟩ := counted_next hc he hpu.1 (next_purpose he)
        split
        · simp
        · rename_i row _
          have hg := textify_good b len fuel (cap - acc.length) left it'.type it'.klass row it'.dataLen (by omega) (by omega) h1
          split
          · rename_i e hte
            rw [hte] at hg
            simpa using hg.1
          · rename_i r hr
            split
            · rename_i x t
              have := hg.2 _ hr
              simp only [List.length_cons] at this
              refine ih _ _ _ _ hc' (by omega) ?_ (by omega)
              simp only [List.length_append, List.length_cons]
              omega
            · have hm := more_length (n := ana) (k := k) (by omega) (by omega)
              rw [if_neg (by omega)]
              simp

/-- The number of rounds is large enough: more of them change nothing. -/
theorem showLoop_fuel {b : List Byte} {len fuel cap : Nat} {c : Counts} (n : Nat) : ∀ (it : Itr) (acc : List Byte) (left ana : Int),
    (it.pos = none → c.all < n) → (∀ p, it.pos = some p → c.all - it.num < n) →
    showLoop b len fuel cap c (n + 1) it acc left ana = showLoop b len fuel cap c n it acc left ana := by
  induction n with
  | zero =>
    intro it acc left ana h1 h2
    cases hp : it.pos with
    | none => have := h1 hp; omega
    | some p => have := h2 p hp; omega
  | succ n ih =>
    intro it acc left ana h1 h2
    rw [showLoop]
    conv => rhs; rw [showLoop]
    cases hn : next b len c it with
    | none => rfl
    | some r =>
      obtain ⟨it', o⟩ := r
      cases o with
      | none => rfl
      | some q =>
        obtain ⟨g1, -, g3, g4, g5⟩ := next_some hn
        have hrec : ∀ acc left ana, showLoop b len fuel cap c (n + 1) it' acc left ana = showLoop b len fuel cap c n it' acc left ana := by
          intro acc left ana
          refine ih it' acc left ana (by rw [g1]; simp) ?_
          intro p _
          cases hp : it.pos with
          | none => have := h1 hp; have := (g4 hp).1; omega
          | some p' => have := h2 p' hp; have := (g5 p' hp).1; omega
        simp only [hrec]

/-- With room for the last line the buffer is not overrun. -/
theorem getAll_safe {cap size : Nat} {b : List Byte} {len fuel k : Nat}
    (hb : ∀ c, counts b = some c → c.an + c.ns + c.ar < 10 ^ (k + 1)) (hcap : size + k ≤ cap + 4) (hcs : size ≤ cap) :
    getAll cap size b len fuel ≠ .error .overrun := by
  unfold getAll
  split
  · simp
  split
  · simp
  split
  · simp
  · rename_i hs _ c hc
    dsimp only
    have hfirst : ∀ x : Int, (if x = 0 then str "   Nothing.\n" else []).length ≤ 12 := by
      intro x; split
      · decide
      · simp
    rw [if_neg (by have := hfirst ((c.an : Int) + c.ns + c.ar); omega)]
    split
    · simp
    · rename_i it hg
      have := showLoop_safe (b := b) (len := len) (fuel := fuel) (cap := cap) (c := c) (k := k) (by exact_mod_cast hb c hc) (c.all + 2) it [] ((size : Int) - 22)
        ((c.an : Int) + c.ns + c.ar) (gotoAnswers_counted hg) (by omega) (by simp; omega) (by omega)
      split
      · rename_i e he
        rw [he] at this
        simpa using this
      · simp
      · simp

end Verif.Show
