import Verif.Spec.StableBuffer
/-! Lemmas about stable storage. -/

namespace Verif.StableBuffer

theorem splice_get (m d : List (Option Byte)) (o i : Nat) (h : o + d.length ≤ m.length) :
    (m.take o ++ d ++ m.drop (o + d.length))[i]? = if o ≤ i ∧ i < o + d.length then d[i - o]? else m[i]? := by
  have ht : (m.take o).length = o := by rw [List.length_take]; omega
  by_cases h1 : i < o
  · rw [if_neg (by omega), List.append_assoc, List.getElem?_append_left (by omega), List.getElem?_take, if_pos h1]
  · rw [List.append_assoc, List.getElem?_append_right (by omega), ht]
    by_cases h2 : i < o + d.length
    · rw [if_pos ⟨by omega, h2⟩, List.getElem?_append_left (by omega)]
    · rw [if_neg (by omega), List.getElem?_append_right (by omega), List.getElem?_drop]
      congr 1; omega

theorem splice_length (m d : List (Option Byte)) (o : Nat) (h : o + d.length ≤ m.length) :
    (m.take o ++ d ++ m.drop (o + d.length)).length = m.length := by simp; omega

theorem le_roundUp8 (n : Nat) : n ≤ roundUp8 n := by unfold roundUp8; omega

/-- A place holds these bytes. -/
def Holds (bs : Buf) (p : Pos) (l : List (Option Byte)) : Prop :=
  ∃ b, bs[p.1]? = some b ∧ p.2 + l.length ≤ b.used ∧ ∀ j, j < l.length → b.mem[p.2 + j]? = l[j]?

/-- Two places do not overlap. -/
def Apart (x y : Pos × Nat) : Prop := x.1.1 = y.1.1 → x.1.2 + x.2 ≤ y.1.2

structure Inv (s : St) (ps : List (List (Option Byte))) : Prop where
  fit : ∀ b ∈ s.buf, b.used ≤ b.mem.length
  len : s.places.map (·.2) = ps.map List.length
  holds : ∀ (h : Nat) (p : Pos × Nat) (l : List (Option Byte)), s.places[h]? = some p → ps[h]? = some l → Holds s.buf p.1 l
  apart : s.places.Pairwise Apart

theorem Inv.place {s : St} {ps : List (List (Option Byte))} (hi : Inv s ps) {h : Nat} {x : Pos × Nat}
    (hx : s.places[h]? = some x) : ∃ l, ps[h]? = some l ∧ l.length = x.2 := by
  have h1 : (s.places.map (·.2))[h]? = some x.2 := by simp [hx]
  rw [hi.len] at h1
  simpa using h1

theorem Inv.piece {s : St} {ps : List (List (Option Byte))} (hi : Inv s ps) {h : Nat} {l : List (Option Byte)}
    (hl : ps[h]? = some l) : ∃ x, s.places[h]? = some x ∧ x.2 = l.length := by
  have h1 : (ps.map List.length)[h]? = some l.length := by simp [hl]
  rw [← hi.len] at h1
  simpa using h1

theorem Holds.mem {bs : Buf} {p : Pos} {l : List (Option Byte)} (h : Holds bs p l) (hf : ∀ b ∈ bs, b.used ≤ b.mem.length) :
    ∃ b, bs[p.1]? = some b ∧ p.2 + l.length ≤ b.mem.length := by
  obtain ⟨b, h1, h2, -⟩ := h
  have := hf b (List.mem_of_getElem? h1)
  exact ⟨b, h1, by omega⟩

theorem Holds.read {bs : Buf} {p : Pos} {l : List (Option Byte)} (h : Holds bs p l) (hf : ∀ b ∈ bs, b.used ≤ b.mem.length) :
    StableBuffer.read bs p l.length = some l := by
  obtain ⟨b, h1, h2, h3⟩ := h
  have := hf b (List.mem_of_getElem? h1)
  unfold StableBuffer.read
  rw [h1]
  dsimp only
  rw [if_pos (by omega)]
  congr 1
  refine List.ext_getElem? fun j => ?_
  rw [List.getElem?_take]
  split
  · rename_i hj
    rw [List.getElem?_drop, h3 j hj]
  · rename_i hj
    rw [List.getElem?_eq_none (by omega)]

theorem write_eq {bs : Buf} {p : Pos} {d : List (Option Byte)} {b : Block} (hb : bs[p.1]? = some b)
    (hl : p.2 + d.length ≤ b.mem.length) :
    write bs p d = some (bs.set p.1 { b with mem := b.mem.take p.2 ++ d ++ b.mem.drop (p.2 + d.length) }) := by
  unfold write
  rw [hb]
  dsimp only
  rw [if_pos hl]

theorem set_get {bs : Buf} {i j : Nat} {b c : Block} (hb : bs[i]? = some b) :
    (bs.set i c)[j]? = if i = j then some c else bs[j]? := by
  have : i < bs.length := (List.getElem?_eq_some_iff.1 hb).1
  by_cases h : i = j
  · subst h; rw [if_pos rfl, List.getElem?_set_self this]
  · rw [if_neg h, List.getElem?_set_ne h]

theorem fit_write {bs bs' : Buf} {p : Pos} {d : List (Option Byte)} (h : write bs p d = some bs')
    (hf : ∀ b ∈ bs, b.used ≤ b.mem.length) : ∀ b ∈ bs', b.used ≤ b.mem.length := by
  unfold write at h
  split at h
  · cases h
  · rename_i b hb
    split at h
    · rename_i hl
      cases h
      intro x hx
      rcases List.mem_or_eq_of_mem_set hx with hx | hx
      · exact hf x hx
      · subst hx
        have := splice_length b.mem d p.2 hl
        have h2 := hf b (List.mem_of_getElem? hb)
        simp only at this ⊢
        omega
    · cases h

/-- A write elsewhere. -/
theorem Holds.other {bs bs' : Buf} {p q : Pos} {d l : List (Option Byte)} (h : Holds bs q l) (hw : write bs p d = some bs')
    (hd : p.1 = q.1 → q.2 + l.length ≤ p.2 ∨ p.2 + d.length ≤ q.2) : Holds bs' q l := by
  obtain ⟨b, h1, h2, h3⟩ := h
  unfold write at hw
  split at hw
  · cases hw
  · rename_i c hc
    split at hw
    · rename_i hl
      cases hw
      by_cases he : p.1 = q.1
      · rw [he, h1] at hc
        cases hc
        refine ⟨{ b with mem := b.mem.take p.2 ++ d ++ b.mem.drop (p.2 + d.length) }, by rw [he, set_get h1, if_pos rfl], h2, fun j hj => ?_⟩
        dsimp only
        rw [splice_get _ _ _ _ hl]
        rw [if_neg (by have := hd he; omega)]
        exact h3 j hj
      · refine ⟨b, ?_, h2, h3⟩
        rw [set_get hc, if_neg he]
        exact h1
    · cases hw

/-- A write to the whole place. -/
theorem holds_write {bs bs' : Buf} {p : Pos} {d : List (Option Byte)} {b : Block} (hb : bs[p.1]? = some b)
    (hu : p.2 + d.length ≤ b.used) (hw : write bs p d = some bs') : Holds bs' p d := by
  unfold write at hw
  rw [hb] at hw
  dsimp only at hw
  split at hw
  · rename_i hl
    cases hw
    refine ⟨{ b with mem := b.mem.take p.2 ++ d ++ b.mem.drop (p.2 + d.length) }, by rw [set_get hb, if_pos rfl], hu, fun j hj => ?_⟩
    dsimp only
    rw [splice_get _ _ _ _ hl, if_pos (by omega)]
    congr 1; omega
  · cases hw

/-- A new place: behind everything else. -/
theorem writeHere_spec {ok : Bool} {bs : Buf} {len : Nat} (hf : ∀ b ∈ bs, b.used ≤ b.mem.length)
    (hsmall : len * (bs.length + 1) ≤ 2147483647) :
    (ok = false ∧ writeHere ok bs len = some (bs, none)) ∨
    ∃ bs' p b, writeHere ok bs len = some (bs', some p) ∧ (∀ b ∈ bs', b.used ≤ b.mem.length) ∧ bs'[p.1]? = some b ∧
      p.2 + len ≤ b.used ∧ bs'.length ≤ bs.length + 1 ∧ (∀ q l, Holds bs q l → Holds bs' q l ∧ (q.1 = p.1 → q.2 + l.length ≤ p.2)) := by
  unfold writeHere
  cases hn : needRealloc bs len with
  | true =>
    rw [if_pos rfl, if_neg (by omega)]
    cases ok with
    | false => exact .inl ⟨rfl, rfl⟩
    | true =>
      right
      refine ⟨_, _, ⟨List.replicate (roundUp8 (len * (bs.length + 1))) none, len⟩, rfl, ?_, ?_, ?_, ?_, ?_⟩
      · intro b hb
        rcases List.mem_append.1 hb with hb | hb
        · exact hf b hb
        · simp at hb
          subst hb
          have := le_roundUp8 (len * (bs.length + 1))
          have h2 : len ≤ len * (bs.length + 1) := Nat.le_mul_of_pos_right _ (by omega)
          simp; omega
      · simp
      · simp
      · simp
      · rintro q l ⟨b, h1, h2, h3⟩
        have hlt : q.1 < bs.length := (List.getElem?_eq_some_iff.1 h1).1
        refine ⟨⟨b, by rw [List.getElem?_append_left hlt]; exact h1, h2, h3⟩, ?_⟩
        intro e; dsimp only at e; omega
  | false =>
    rw [if_neg (by simp)]
    unfold needRealloc at hn
    cases hg : bs.getLast? with
    | none => rw [hg] at hn; simp at hn
    | some l =>
      rw [hg] at hn
      simp only [decide_eq_false_iff_not] at hn
      right
      obtain ⟨ys, rfl⟩ := List.getLast?_eq_some_iff.1 hg
      have hl := hf l (by simp)
      refine ⟨_, _, { l with used := l.used + len }, rfl, ?_, ?_, ?_, ?_, ?_⟩
      · intro b hb
        rw [List.dropLast_concat] at hb
        rcases List.mem_append.1 hb with hb | hb
        · exact hf b (by simp [hb])
        · simp at hb; subst hb; dsimp only; omega
      · simp
      · simp
      · simp
      · rintro q l' ⟨b, h1, h2, h3⟩
        have hlt : q.1 < (ys ++ [l]).length := (List.getElem?_eq_some_iff.1 h1).1
        simp at hlt
        rw [List.dropLast_concat]
        by_cases he : q.1 = ys.length
        · rw [he] at h1
          simp at h1
          subst h1
          refine ⟨⟨{ l with used := l.used + len }, by rw [he]; simp, by dsimp only; omega, h3⟩, fun _ => h2⟩
        · rw [List.getElem?_append_left (by omega)] at h1
          refine ⟨⟨b, by rw [List.getElem?_append_left (by omega)]; exact h1, h2, h3⟩, ?_⟩
          intro e; simp at e; omega

end Verif.StableBuffer
