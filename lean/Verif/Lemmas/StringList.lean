import Verif.Spec.StringList
import Verif.Lemmas.StableBuffer
/-! Lemmas about string lists. -/

namespace Verif.StringList
open StableBuffer

/-- Strings one behind the other. -/
def enc (ss : List (List Byte)) : List Byte := ss.flatMap (· ++ [0])

@[simp] theorem enc_nil : enc [] = [] := rfl
@[simp] theorem enc_cons (s : List Byte) (ss : List (List Byte)) : enc (s :: ss) = s ++ 0 :: enc ss := by simp [enc]
@[simp] theorem enc_append (a b : List (List Byte)) : enc (a ++ b) = enc a ++ enc b := by simp [enc]

def blk (x : List Byte) (rest : List (Option Byte)) : Block := ⟨x.map some ++ rest, x.length⟩

def Clean (ss : List (List Byte)) : Prop := ∀ s ∈ ss, (0 : Byte) ∉ s

/-- The blocks hold these strings. -/
inductive Rep : Buf → List (List (List Byte)) → Prop
  | nil : Rep [] []
  | cons {ss : List (List Byte)} {rest : List (Option Byte)} {bs : Buf} {sss : List (List (List Byte))} :
      Clean ss → Rep bs sss → Rep (blk (enc ss) rest :: bs) (ss :: sss)

theorem cstr_spec (s : List Byte) (rest : List (Option Byte)) (h : (0 : Byte) ∉ s) :
    cstr (s.map some ++ some 0 :: rest) = some s := by
  induction s with
  | nil => simp [cstr]
  | cons c s ih =>
    simp only [List.mem_cons, not_or] at h
    simp [cstr, ih h.2, Ne.symm h.1]

theorem get_mid (pre post : Buf) (b : Block) : (pre ++ b :: post)[pre.length]? = some b := by simp

theorem set_mid (pre post : Buf) (b c : Block) : (pre ++ b :: post).set pre.length c = pre ++ c :: post := by simp

theorem strAt_blk (pre post : Buf) (A s C : List Byte) (rest : List (Option Byte)) (h : (0 : Byte) ∉ s) :
    strAt (pre ++ blk (A ++ (s ++ 0 :: C)) rest :: post) (pre.length, A.length) = some s := by
  unfold strAt
  simp only [get_mid]
  have : (blk (A ++ (s ++ 0 :: C)) rest).mem.drop A.length = s.map some ++ some 0 :: (C.map some ++ rest) := by
    simp only [blk, List.map_append, List.append_assoc]
    rw [show A.length = (A.map some).length by simp, List.drop_left]
    simp
  rw [this]
  exact cstr_spec s _ h

theorem removeN_blk (pre post : Buf) (A M C : List Byte) (rest : List (Option Byte)) (h : 0 < M.length + C.length) :
    ∃ rest', removeN (pre ++ blk (A ++ (M ++ C)) rest :: post) (pre.length, A.length) M.length =
      pre ++ blk (A ++ C) rest' :: post := by
  unfold removeN
  simp only [get_mid, set_mid]
  rw [if_neg (by simp only [blk, List.length_append]; omega), if_neg (by simp only [blk, List.length_append]; omega)]
  refine ⟨(blk (A ++ (M ++ C)) rest).mem.drop (A.length + C.length), ?_⟩
  congr 2
  simp only [blk, Block.mk.injEq]
  constructor
  · have e1 : ((A ++ (M ++ C)).map some ++ rest).take A.length = A.map some := by
      simp only [List.map_append, List.append_assoc]
      rw [show A.length = (A.map some).length by simp, List.take_left]
    have e2 : ((A ++ (M ++ C)).map some ++ rest).drop (A.length + M.length) = C.map some ++ rest := by
      simp only [List.map_append, List.append_assoc]
      rw [← List.append_assoc, show A.length + M.length = (A.map some ++ M.map some).length by simp, List.drop_left]
    rw [e1, e2]
    have e3 : (A ++ (M ++ C)).length - A.length - M.length = (C.map some).length := by simp
    have e4 : (A ++ (M ++ C)).length - M.length = A.length + C.length := by simp; omega
    rw [e3, e4, List.take_left]
    simp
  · simp; omega

theorem write_blk (pre post : Buf) (A M M' C : List Byte) (rest : List (Option Byte)) (h : M'.length = M.length) :
    write (pre ++ blk (A ++ (M ++ C)) rest :: post) (pre.length, A.length) (M'.map some) =
      some (pre ++ blk (A ++ (M' ++ C)) rest :: post) := by
  unfold write
  simp only [get_mid, set_mid]
  rw [if_pos (by simp [blk]; omega)]
  congr 3
  simp only [blk, Block.mk.injEq]
  constructor
  · have e1 : ((A ++ (M ++ C)).map some ++ rest).take A.length = A.map some := by
      simp only [List.map_append, List.append_assoc]
      rw [show A.length = (A.map some).length by simp, List.take_left]
    have e2 : ((A ++ (M ++ C)).map some ++ rest).drop (A.length + (M'.map some).length) = C.map some ++ rest := by
      simp only [List.map_append, List.append_assoc]
      rw [← List.append_assoc, List.length_map, h, show A.length + M.length = (A.map some ++ M.map some).length by simp, List.drop_left]
    rw [e1, e2]
    simp
  · simp [h]

theorem seek_in (pre post : Buf) (b : Block) (off : Nat) (h : off < b.used) :
    seek (pre ++ b :: post) (pre.length, off) = some (pre.length, off) := by
  simp [seek, seekL, h]

theorem seek_end (pre post : Buf) (b : Block) (off : Nat) (h : b.used ≤ off) :
    seek (pre ++ b :: post) (pre.length, off) = seek (pre ++ b :: post) (pre.length + 1, 0) := by
  have h1 : seek (pre ++ b :: post) (pre.length, off) = seekL (pre.length + 1) 0 post := by
    simp only [seek, List.drop_left, seekL]
    rw [if_neg (by omega)]
  have h2 : seek (pre ++ b :: post) (pre.length + 1, 0) = seekL (pre.length + 1) 0 post := by
    simp only [seek]
    rw [show pre ++ b :: post = (pre ++ [b]) ++ post by simp, show pre.length + 1 = (pre ++ [b]).length by simp, List.drop_left]
  rw [h1, h2]

theorem seek_none (pre : Buf) : seek pre (pre.length, 0) = none := by simp [seek, seekL]

/-- Where the loops are: the strings `as` of a block are done, `ss` are left. -/
theorem seek_cursor (pre post : Buf) (as ss : List (List Byte)) (rest : List (Option Byte)) :
    seek (pre ++ blk (enc (as ++ ss)) rest :: post) (pre.length, (enc as).length) =
      if ss = [] then seek ((pre ++ [blk (enc as) rest]) ++ post) ((pre ++ [blk (enc as) rest]).length, 0)
      else some (pre.length, (enc as).length) := by
  cases ss with
  | nil => rw [if_pos rfl, List.append_nil, seek_end _ _ _ _ (by simp [blk])]; simp
  | cons s ss => rw [if_neg (by simp), seek_in]; simp [blk]; omega

theorem next_blk (pre post : Buf) (as ss : List (List Byte)) (s : List Byte) (rest : List (Option Byte)) (h : (0 : Byte) ∉ s) :
    next (pre ++ blk (enc (as ++ s :: ss)) rest :: post) (pre.length, (enc as).length) =
      some (seek (pre ++ blk (enc ((as ++ [s]) ++ ss)) rest :: post) (pre.length, (enc (as ++ [s])).length)) := by
  unfold next
  have : enc (as ++ s :: ss) = enc as ++ (s ++ 0 :: enc ss) := by simp
  rw [this, strAt_blk _ _ _ _ _ _ h]
  simp [Nat.add_assoc]

theorem strAt_cursor (pre post : Buf) (as ss : List (List Byte)) (s : List Byte) (rest : List (Option Byte)) (h : (0 : Byte) ∉ s) :
    strAt (pre ++ blk (enc (as ++ s :: ss)) rest :: post) (pre.length, (enc as).length) = some s := by
  have : enc (as ++ s :: ss) = enc as ++ (s ++ 0 :: enc ss) := by simp
  rw [this]
  exact strAt_blk _ _ _ _ _ _ h

/-! ### Going over the strings -/

theorem itemsFrom_none (fuel : Nat) (bs : Buf) : itemsFrom fuel bs none = some [] := by cases fuel <;> rfl
theorem countFrom_none (fuel : Nat) (bs : Buf) : countFrom fuel bs none = some 0 := by cases fuel <;> rfl
theorem trimLoop_none (g : List Byte) (fuel : Nat) (bs : Buf) : trimLoop g fuel bs none = some bs := by cases fuel <;> rfl
theorem lowerLoop_none (fuel : Nat) (bs : Buf) : lowerLoop fuel bs none = some bs := by cases fuel <;> rfl

theorem itemsFrom_block (post : Buf) (out : List (List Byte)) (as ss : List (List Byte)) (rest : List (Option Byte)) (pre : Buf)
    (hc : Clean ss) (hpost : ∀ fuel, out.length ≤ fuel →
      itemsFrom fuel ((pre ++ [blk (enc (as ++ ss)) rest]) ++ post)
        (seek ((pre ++ [blk (enc (as ++ ss)) rest]) ++ post) ((pre ++ [blk (enc (as ++ ss)) rest]).length, 0)) = some out) :
    ∀ fuel, (ss ++ out).length ≤ fuel →
      itemsFrom fuel (pre ++ blk (enc (as ++ ss)) rest :: post)
        (seek (pre ++ blk (enc (as ++ ss)) rest :: post) (pre.length, (enc as).length)) = some (ss ++ out) := by
  induction ss generalizing as with
  | nil =>
    intro fuel hf
    rw [seek_cursor, if_pos rfl]
    simp only [List.append_nil, List.nil_append] at hpost ⊢
    have := hpost fuel (by simpa using hf)
    simpa using this
  | cons s ss ih =>
    intro fuel hf
    rw [seek_cursor, if_neg (by simp)]
    cases fuel with
    | zero => simp at hf
    | succ fuel =>
      rw [itemsFrom, strAt_cursor _ _ _ _ _ _ (hc s (by simp)), next_blk _ _ _ _ _ _ (hc s (by simp))]
      dsimp only
      have := ih (as ++ [s]) (fun x hx => hc x (by simp [hx])) (by simpa using hpost) fuel (by simp at hf ⊢; omega)
      simp only [List.append_assoc, List.cons_append, List.nil_append] at this
      simp only [List.append_assoc, List.cons_append, List.nil_append]
      rw [this]
      rfl

theorem items_blocks (bs : Buf) (sss : List (List (List Byte))) (h : Rep bs sss) : ∀ (pre : Buf) (fuel : Nat), sss.flatten.length ≤ fuel →
    itemsFrom fuel (pre ++ bs) (seek (pre ++ bs) (pre.length, 0)) = some sss.flatten := by
  induction h with
  | nil => intro pre fuel _; rw [List.append_nil, seek_none, itemsFrom_none]; rfl
  | @cons ss rest bs sss hc _ ih =>
    intro pre fuel hf
    have := itemsFrom_block bs sss.flatten [] ss rest pre hc (by
      intro fuel hf
      simp only [List.nil_append]
      exact ih _ _ hf) fuel (by simpa using hf)
    simpa using this

theorem countFrom_eq (fuel : Nat) : ∀ (bs : Buf) (p : Option Pos) (l : List (List Byte)), itemsFrom fuel bs p = some l →
    countFrom fuel bs p = some l.length := by
  induction fuel with
  | zero => intro bs p l h; cases p <;> simp [itemsFrom] at h; subst h; rfl
  | succ n ih =>
    intro bs p l h
    cases p with
    | none => simp [itemsFrom] at h; subst h; rfl
    | some p =>
      rw [itemsFrom] at h
      rw [countFrom]
      cases h1 : strAt bs p with
      | none => rw [h1] at h; cases h
      | some s =>
        cases h2 : next bs p with
        | none => rw [h1, h2] at h; cases h
        | some q =>
          rw [h1, h2] at h
          dsimp only at h
          rw [Option.map_eq_some_iff] at h
          obtain ⟨l', h3, rfl⟩ := h
          simp [ih _ _ _ h3]

theorem length_le_enc (ss : List (List Byte)) : ss.length ≤ (enc ss).length := by
  induction ss with
  | nil => simp
  | cons s ss ih => simp; omega

theorem total_rep {bs : Buf} {sss : List (List (List Byte))} (h : Rep bs sss) : total bs = (enc sss.flatten).length := by
  induction h with
  | nil => rfl
  | cons hc _ ih =>
    simp only [total, List.map_cons, List.sum_cons] at ih ⊢
    rw [ih]
    simp [blk]

theorem items_rep {bs : Buf} {sss : List (List (List Byte))} (h : Rep bs sss) : items bs = some sss.flatten := by
  have := items_blocks bs sss h [] (total bs) (by rw [total_rep h]; exact length_le_enc _)
  simpa [items, first] using this

theorem count_rep {bs : Buf} {sss : List (List (List Byte))} (h : Rep bs sss) : count bs = some sss.flatten.length :=
  countFrom_eq _ _ _ _ (items_rep h)

/-! ### Trimming -/

theorem strNpbrk_spec (s g : List Byte) :
    (strNpbrk s g = none ∧ Blank g s) ∨
    ∃ a r, s = a ++ r ∧ Blank g a ∧ r ≠ [] ∧ (∀ c, r.head? = some c → c ∉ g) ∧ strNpbrk s g = some a.length := by
  unfold strNpbrk
  have hs := List.takeWhile_append_dropWhile (p := fun c => decide (c ∈ g)) (l := s)
  have ht : Blank g (s.takeWhile (fun c => decide (c ∈ g))) := by
    intro c hc
    have := List.all_takeWhile (p := fun c => decide (c ∈ g)) (l := s)
    rw [List.all_eq_true] at this
    simpa using this c hc
  cases hd : s.dropWhile (fun c => decide (c ∈ g)) with
  | nil =>
    left
    rw [hd, List.append_nil] at hs
    exact ⟨rfl, hs ▸ ht⟩
  | cons c r =>
    right
    rw [hd] at hs
    refine ⟨_, c :: r, hs.symm, ht, by simp, ?_, ?_⟩
    · intro x hx
      simp at hx
      subst hx
      have := List.head?_dropWhile_not (fun c => decide (c ∈ g)) s
      rw [hd] at this
      simpa using this
    · dsimp only
      congr 1
      have := congrArg List.length hs
      simp only [List.length_append] at this
      omega

theorem strRNpbrk_spec (s g : List Byte) (hne : s ≠ []) (hh : ∀ c, s.head? = some c → c ∉ g) :
    ∃ t b, s = t ++ b ∧ Blank g b ∧ t ≠ [] ∧ (∀ c, t.getLast? = some c → c ∉ g) ∧ (∀ c, t.head? = some c → c ∉ g) ∧
      strRNpbrk s g = some (t.length - 1) := by
  unfold strRNpbrk
  have hs := List.takeWhile_append_dropWhile (p := fun c => decide (c ∈ g)) (l := s.reverse)
  have ht : Blank g (s.reverse.takeWhile (fun c => decide (c ∈ g))) := by
    intro c hc
    have := List.all_takeWhile (p := fun c => decide (c ∈ g)) (l := s.reverse)
    rw [List.all_eq_true] at this
    simpa using this c hc
  cases hd : s.reverse.dropWhile (fun c => decide (c ∈ g)) with
  | nil =>
    exfalso
    rw [hd, List.append_nil] at hs
    rw [hs] at ht
    obtain ⟨c, r, rfl⟩ := List.exists_cons_of_ne_nil hne
    exact hh c rfl (ht c (by simp))
  | cons c r =>
    rw [hd] at hs
    have hs' := congrArg List.reverse hs
    simp only [List.reverse_append, List.reverse_reverse] at hs'
    refine ⟨(c :: r).reverse, _, hs'.symm, fun x hx => ht x (by simpa using hx), by simp, ?_, ?_, by simp⟩
    · intro x hx
      rw [List.getLast?_reverse] at hx
      simp at hx
      subst hx
      have := List.head?_dropWhile_not (fun c => decide (c ∈ g)) s.reverse
      rw [hd] at this
      simpa using this
    · intro x hx
      refine hh x ?_
      rw [← hs']
      rw [List.head?_append, hx]
      rfl

theorem trim_block (g : List Byte) (post : Buf) (n : Nat) (Q : Buf → Prop) (ss : List (List Byte)) :
    ∀ (as : List (List Byte)) (rest : List (Option Byte)) (pre : Buf) (fuel : Nat), Clean ss → ss.length + n ≤ fuel →
    (∀ as' rest' fuel, n ≤ fuel → ∃ post', trimLoop g fuel ((pre ++ [blk (enc as') rest']) ++ post)
        (seek ((pre ++ [blk (enc as') rest']) ++ post) ((pre ++ [blk (enc as') rest']).length, 0)) =
          some ((pre ++ [blk (enc as') rest']) ++ post') ∧ Q post') →
    ∃ ts rest' post', trimLoop g fuel (pre ++ blk (enc (as ++ ss)) rest :: post)
        (seek (pre ++ blk (enc (as ++ ss)) rest :: post) (pre.length, (enc as).length)) =
          some (pre ++ blk (enc (as ++ ts)) rest' :: post') ∧ Trims g ss ts ∧ Clean ts ∧ Q post' := by
  induction ss with
  | nil =>
    intro as rest pre fuel _ hf hpost
    obtain ⟨post', h1, h2⟩ := hpost as rest fuel (by simpa using hf)
    refine ⟨[], rest, post', ?_, .nil, by simp [Clean], h2⟩
    rw [seek_cursor, if_pos rfl]
    simpa using h1
  | cons s ss ih =>
    intro as rest pre fuel hc hf hpost
    rw [seek_cursor, if_neg (by simp)]
    cases fuel with
    | zero => simp at hf
    | succ fuel =>
      simp only [List.length_cons] at hf
      have h0 : (0 : Byte) ∉ s := hc s (by simp)
      have hc' : Clean ss := fun x hx => hc x (by simp [hx])
      rw [trimLoop, strAt_cursor _ _ _ _ _ _ h0]
      dsimp only
      rcases strNpbrk_spec s g with ⟨h1, h2⟩ | ⟨a, r, h1, h2, h3, h4, h5⟩
      · rw [h1]
        dsimp only
        have hrm : ∃ rest', removeN (pre ++ blk (enc (as ++ s :: ss)) rest :: post) (pre.length, (enc as).length) (s.length + 1) =
            pre ++ blk (enc (as ++ ss)) rest' :: post := by
          have := removeN_blk pre post (enc as) (s ++ [0]) (enc ss) rest (by simp; omega)
          simpa using this
        obtain ⟨rest', hrm⟩ := hrm
        unfold remove
        rw [strAt_cursor _ _ _ _ _ _ h0]
        simp only [Option.map_some, hrm]
        obtain ⟨ts, rest2, post', e1, e2, e3, e4⟩ := ih as rest' pre fuel hc' (by omega) hpost
        exact ⟨ts, rest2, post', e1, .blank h2 e2, e3, e4⟩
      · rw [h5]
        dsimp only
        subst h1
        have hr0 : (0 : Byte) ∉ r := fun hm => h0 (by simp [hm])
        have hrm : ∃ rest', removeN (pre ++ blk (enc (as ++ (a ++ r) :: ss)) rest :: post) (pre.length, (enc as).length) a.length =
            pre ++ blk (enc (as ++ r :: ss)) rest' :: post := by
          have := removeN_blk pre post (enc as) a (r ++ 0 :: enc ss) rest (by simp; omega)
          simpa using this
        obtain ⟨rest', hrm⟩ := hrm
        rw [hrm, strAt_cursor _ _ _ _ _ _ hr0]
        dsimp only
        obtain ⟨t, b, k1, k2, k3, k4, k5, k6⟩ := strRNpbrk_spec r g h3 h4
        rw [k6]
        dsimp only
        subst k1
        have htl : 0 < t.length := List.length_pos_iff.2 k3
        have ht0 : (0 : Byte) ∉ t := fun hm => hr0 (by simp [hm])
        have hrm2 : ∃ rest'', removeN (pre ++ blk (enc (as ++ (t ++ b) :: ss)) rest' :: post)
            (pre.length, (enc as).length + (t.length - 1) + 1) ((t ++ b).length - (t.length - 1 + 1)) =
            pre ++ blk (enc (as ++ t :: ss)) rest'' :: post := by
          have := removeN_blk pre post (enc as ++ t) b (0 :: enc ss) rest' (by simp; omega)
          have e1 : (enc as).length + (t.length - 1) + 1 = (enc as ++ t).length := by simp; omega
          have e2 : (t ++ b).length - (t.length - 1 + 1) = b.length := by simp; omega
          rw [e1, e2]
          simpa using this
        obtain ⟨rest'', hrm2⟩ := hrm2
        rw [hrm2, next_blk _ _ _ _ _ _ ht0]
        dsimp only
        obtain ⟨ts, rest2, post', e1, e2, e3, e4⟩ := ih (as ++ [t]) rest'' pre fuel hc' (by omega) hpost
        refine ⟨t :: ts, rest2, post', ?_, .keep ⟨a, b, by simp, h2, k2, k5, k4⟩ k3 e2, ?_, e4⟩
        · simpa using e1
        · intro x hx
          rcases List.mem_cons.1 hx with rfl | hx
          · exact ht0
          · exact e3 x hx

theorem trims_append {g : List Byte} {a b c d : List (List Byte)} (h1 : Trims g a b) (h2 : Trims g c d) : Trims g (a ++ c) (b ++ d) := by
  induction h1 with
  | nil => exact h2
  | blank h _ ih => exact .blank h ih
  | keep h h' _ ih => exact .keep h h' ih

theorem trim_blocks (g : List Byte) (bs : Buf) (sss : List (List (List Byte))) (h : Rep bs sss) :
    ∀ (pre : Buf) (fuel : Nat), sss.flatten.length ≤ fuel →
    ∃ bs', trimLoop g fuel (pre ++ bs) (seek (pre ++ bs) (pre.length, 0)) = some (pre ++ bs') ∧
      ∃ tss, Rep bs' tss ∧ Trims g sss.flatten tss.flatten ∧ bs'.length = bs.length := by
  induction h with
  | nil =>
    intro pre fuel _
    refine ⟨[], ?_, [], .nil, .nil, rfl⟩
    rw [List.append_nil, seek_none, trimLoop_none]
  | @cons ss rest bs sss hc hr ih =>
    intro pre fuel hf
    obtain ⟨ts, rest', post', e1, e2, e3, e4⟩ := trim_block g bs sss.flatten.length
      (fun post' => ∃ tss, Rep post' tss ∧ Trims g sss.flatten tss.flatten ∧ post'.length = bs.length) ss [] rest pre fuel hc
      (by simpa using hf) (fun as' rest' fuel hf => ih _ _ hf)
    obtain ⟨tss, h1, h2, h3⟩ := e4
    refine ⟨_, by simpa using e1, ts :: tss, .cons e3 h1, ?_, by simp [h3]⟩
    simpa using trims_append e2 h2

theorem trimAll_rep {bs : Buf} {sss : List (List (List Byte))} (h : Rep bs sss) (g : Option (List Byte)) :
    ∃ bs' tss, trimAll bs g = some bs' ∧ Rep bs' tss ∧ Trims (g.getD [9, 32, 13, 10]) sss.flatten tss.flatten ∧ bs'.length = bs.length := by
  obtain ⟨bs', h1, tss, h2, h3, h4⟩ := trim_blocks (g.getD [9, 32, 13, 10]) bs sss h [] (total bs) (by
    rw [total_rep h]; exact length_le_enc _)
  exact ⟨bs', tss, by simpa [trimAll, first] using h1, h2, h3, h4⟩

/-! ### Small letters -/

theorem lower_no_zero {s : List Byte} (h : (0 : Byte) ∉ s) : (0 : Byte) ∉ strToLower s := by
  intro hm
  simp only [strToLower, List.mem_map] at hm
  obtain ⟨c, hc, h1⟩ := hm
  unfold toLowerByte at h1
  split at h1
  · rename_i hr
    have h2 := congrArg UInt8.toNat h1
    have h3 : (65 : Byte).toNat ≤ c.toNat := hr.1
    have h4 : c.toNat ≤ (90 : Byte).toNat := hr.2
    have e1 : (65 : Byte).toNat = 65 := rfl
    have e2 : (90 : Byte).toNat = 90 := rfl
    rw [UInt8.toNat_add] at h2
    have e3 : (32 : Byte).toNat = 32 := rfl
    have e4 : (0 : Byte).toNat = 0 := rfl
    omega
  · subst h1; exact h hc

theorem lower_block (post : Buf) (n : Nat) (Q : Buf → Prop) (ss : List (List Byte)) :
    ∀ (as : List (List Byte)) (rest : List (Option Byte)) (pre : Buf) (fuel : Nat), Clean ss → ss.length + n ≤ fuel →
    (∀ as' rest' fuel, n ≤ fuel → ∃ post', lowerLoop fuel ((pre ++ [blk (enc as') rest']) ++ post)
        (seek ((pre ++ [blk (enc as') rest']) ++ post) ((pre ++ [blk (enc as') rest']).length, 0)) =
          some ((pre ++ [blk (enc as') rest']) ++ post') ∧ Q post') →
    ∃ rest' post', lowerLoop fuel (pre ++ blk (enc (as ++ ss)) rest :: post)
        (seek (pre ++ blk (enc (as ++ ss)) rest :: post) (pre.length, (enc as).length)) =
          some (pre ++ blk (enc (as ++ ss.map strToLower)) rest' :: post') ∧ Q post' := by
  induction ss with
  | nil =>
    intro as rest pre fuel _ hf hpost
    obtain ⟨post', h1, h2⟩ := hpost as rest fuel (by simpa using hf)
    refine ⟨rest, post', ?_, h2⟩
    rw [seek_cursor, if_pos rfl]
    simpa using h1
  | cons s ss ih =>
    intro as rest pre fuel hc hf hpost
    rw [seek_cursor, if_neg (by simp)]
    cases fuel with
    | zero => simp at hf
    | succ fuel =>
      simp only [List.length_cons] at hf
      have h0 : (0 : Byte) ∉ s := hc s (by simp)
      rw [lowerLoop, strAt_cursor _ _ _ _ _ _ h0]
      dsimp only
      have hw : write (pre ++ blk (enc (as ++ s :: ss)) rest :: post) (pre.length, (enc as).length) ((strToLower s).map some) =
          some (pre ++ blk (enc (as ++ strToLower s :: ss)) rest :: post) := by
        have := write_blk pre post (enc as) s (strToLower s) (0 :: enc ss) rest (by simp [strToLower])
        simpa using this
      rw [hw]
      dsimp only
      rw [next_blk _ _ _ _ _ _ (lower_no_zero h0)]
      dsimp only
      obtain ⟨rest2, post', e1, e4⟩ := ih (as ++ [strToLower s]) rest pre fuel (fun x hx => hc x (by simp [hx])) (by omega) hpost
      exact ⟨rest2, post', by simpa using e1, e4⟩

theorem lower_blocks (bs : Buf) (sss : List (List (List Byte))) (h : Rep bs sss) :
    ∀ (pre : Buf) (fuel : Nat), sss.flatten.length ≤ fuel →
    ∃ bs', lowerLoop fuel (pre ++ bs) (seek (pre ++ bs) (pre.length, 0)) = some (pre ++ bs') ∧
      Rep bs' (sss.map (·.map strToLower)) ∧ bs'.length = bs.length := by
  induction h with
  | nil =>
    intro pre fuel _
    refine ⟨[], ?_, .nil, rfl⟩
    rw [List.append_nil, seek_none, lowerLoop_none]
  | @cons ss rest bs sss hc hr ih =>
    intro pre fuel hf
    obtain ⟨rest', post', e1, e2, e3⟩ := lower_block bs sss.flatten.length
      (fun post' => Rep post' (sss.map (·.map strToLower)) ∧ post'.length = bs.length) ss [] rest pre fuel hc
      (by simpa using hf) (fun as' rest' fuel hf => ih _ _ hf)
    refine ⟨_, by simpa using e1, .cons ?_ e2, by simp [e3]⟩
    intro x hx
    rw [List.mem_map] at hx
    obtain ⟨y, hy, rfl⟩ := hx
    exact lower_no_zero (hc y hy)

theorem lower_rep {bs : Buf} {sss : List (List (List Byte))} (h : Rep bs sss) :
    ∃ bs', lowercaseAll bs = some bs' ∧ Rep bs' (sss.map (·.map strToLower)) ∧ bs'.length = bs.length := by
  obtain ⟨bs', h1, h2, h3⟩ := lower_blocks bs sss h [] (total bs) (by rw [total_rep h]; exact length_le_enc _)
  exact ⟨bs', by simpa [lowercaseAll, first] using h1, h2, h3⟩

/-! ### Adding -/

theorem divideL_spec (d s : List Byte) (rest : List (Option Byte)) (h : (0 : Byte) ∉ s) :
    divideL d (s.map some ++ some 0 :: rest) = some ((s.map fun c => if c ∈ d then 0 else c).map some ++ some 0 :: rest) := by
  induction s with
  | nil => simp [divideL]
  | cons c s ih =>
    simp only [List.mem_cons, not_or] at h
    simp only [List.map_cons, List.cons_append, divideL, ih h.2, if_neg (Ne.symm h.1)]
    split <;> rfl

theorem split_exists (d s : List Byte) (h : (0 : Byte) ∉ s) :
    ∃ ps, Split d s ps ∧ Clean ps ∧ ps ≠ [] ∧ enc ps = (s.map fun c => if c ∈ d then 0 else c) ++ [0] := by
  induction s with
  | nil => exact ⟨[[]], .last (by simp), by simp [Clean], by simp, rfl⟩
  | cons c s ih =>
    simp only [List.mem_cons, not_or] at h
    obtain ⟨ps, h1, h2, h3, h4⟩ := ih h.2
    by_cases hc : c ∈ d
    · refine ⟨[] :: ps, .cons (s := []) (by simp) hc h1, ?_, by simp, ?_⟩
      · intro x hx
        rcases List.mem_cons.1 hx with rfl | hx
        · simp
        · exact h2 x hx
      · simp [h4, hc]
    · cases h1 with
      | last hs =>
        refine ⟨[c :: s], .last (by simpa [hc] using hs), ?_, by simp, ?_⟩
        · intro x hx
          simp at hx
          subst hx
          simpa using ⟨h.1, h.2⟩
        · simp only [enc_cons, enc_nil] at h4
          simp only [enc_cons, enc_nil, List.map_cons, List.cons_append, if_neg hc]
          rw [h4]
      | @cons s1 r x ps' hs hx hr =>
        refine ⟨(c :: s1) :: ps', .cons (s := c :: s1) (by simpa [hc] using hs) hx hr, ?_, by simp, ?_⟩
        · intro y hy
          rcases List.mem_cons.1 hy with rfl | hy
          · have := h2 s1 (by simp)
            simpa using ⟨h.1, this⟩
          · exact h2 y (by simp [hy])
        · simp only [enc_cons] at h4
          simp only [enc_cons, List.map_cons, List.cons_append, if_neg hc]
          rw [h4]

theorem divide_blk (pre : Buf) (A s : List Byte) (rest : List (Option Byte)) (d : Option (List Byte)) (h : (0 : Byte) ∉ s) :
    ∃ ps, Split (d.getD []) s ps ∧ Clean ps ∧ ps ≠ [] ∧
      divide d (pre ++ [blk (A ++ (s ++ [0])) rest]) (pre.length, A.length) = some (pre ++ [blk (A ++ enc ps) rest]) := by
  cases d with
  | none =>
    refine ⟨[s], .last (by simp), by simpa [Clean] using h, by simp, ?_⟩
    simp [divide]
  | some d =>
    obtain ⟨ps, h1, h2, h3, h4⟩ := split_exists d s h
    refine ⟨ps, h1, h2, h3, ?_⟩
    unfold divide
    simp only [get_mid, set_mid]
    have e1 : (blk (A ++ (s ++ [0])) rest).mem.drop A.length = s.map some ++ some 0 :: rest := by
      simp only [blk, List.map_append, List.append_assoc]
      rw [show A.length = (A.map some).length by simp, List.drop_left]
      simp
    have e2 : (blk (A ++ (s ++ [0])) rest).mem.take A.length = A.map some := by
      simp only [blk, List.map_append, List.append_assoc]
      rw [show A.length = (A.map some).length by simp, List.take_left]
    rw [e1, e2, divideL_spec d s rest h]
    simp only [Option.map_some]
    congr 3
    rw [h4]
    simp [blk]

theorem add_blk (bs : Buf) (s : List Byte) (hb : ∀ b ∈ bs, ∃ x rest, b = blk x rest)
    (hsmall : (s.length + 1) * (bs.length + 1) ≤ 2147483647) :
    ∃ pre A rest', StableBuffer.add true bs (some ((s ++ [0]).map some)) ((s ++ [0]).map some).length false =
        some (pre ++ [blk (A ++ (s ++ [0])) rest'], some (pre.length, A.length)) ∧
      ((pre = bs ∧ A = []) ∨ ∃ rest, bs = pre ++ [blk A rest]) := by
  unfold StableBuffer.add
  have hlen : ((s ++ [0]).map some).length = s.length + 1 := by simp
  rw [hlen]
  simp only [Bool.false_eq_true, if_false]
  cases hn : needRealloc bs (s.length + 1) with
  | true =>
    have hw : writeHere true bs (s.length + 1) =
        some (bs ++ [⟨List.replicate (roundUp8 ((s.length + 1) * (bs.length + 1))) none, s.length + 1⟩], some (bs.length, 0)) := by
      unfold writeHere
      rw [hn, if_pos rfl, if_neg (by omega), if_pos rfl]
    rw [hw]
    dsimp only
    have hr := le_roundUp8 ((s.length + 1) * (bs.length + 1))
    have h2 : s.length + 1 ≤ (s.length + 1) * (bs.length + 1) := Nat.le_mul_of_pos_right _ (by omega)
    refine ⟨bs, [], List.replicate (roundUp8 ((s.length + 1) * (bs.length + 1)) - (s.length + 1)) none, ?_, .inl ⟨rfl, rfl⟩⟩
    unfold write
    simp only [get_mid, set_mid]
    rw [if_pos (by simp; omega)]
    simp [blk]
  | false =>
    unfold writeHere
    rw [hn, if_neg (by simp)]
    unfold needRealloc at hn
    cases hg : bs.getLast? with
    | none => rw [hg] at hn; simp at hn
    | some l =>
      rw [hg] at hn
      simp only [decide_eq_false_iff_not] at hn
      obtain ⟨ys, rfl⟩ := List.getLast?_eq_some_iff.1 hg
      obtain ⟨A, rest, rfl⟩ := hb l (by simp)
      simp only [blk, List.length_append, List.length_map] at hn
      dsimp only
      rw [List.dropLast_concat]
      refine ⟨ys, A, rest.drop (s.length + 1), ?_, .inr ⟨rest, rfl⟩⟩
      have e1 : (ys ++ [blk A rest]).length - 1 = ys.length := by simp
      rw [e1]
      unfold write
      simp only [get_mid, set_mid]
      rw [if_pos (by simp [blk]; omega)]
      simp only [Option.map_some]
      congr 4
      simp only [blk, Block.mk.injEq]
      constructor
      · have e1 : (A.map some ++ rest).take A.length = A.map some := by
          rw [show A.length = (A.map some).length by simp, List.take_left]
        have e2 : (A.map some ++ rest).drop (A.length + ((s ++ [0]).map some).length) = rest.drop (s.length + 1) := by
          rw [← List.drop_drop, show A.length = (A.map some).length by simp, List.drop_left]
          simp
        rw [e1, e2]
        simp
      · simp

theorem Rep.blks {bs : Buf} {sss : List (List (List Byte))} (h : Rep bs sss) : ∀ b ∈ bs, ∃ x rest, b = blk x rest := by
  induction h with
  | nil => simp
  | cons hc _ ih =>
    intro b hb
    rcases List.mem_cons.1 hb with rfl | hb
    · exact ⟨_, _, rfl⟩
    · exact ih b hb

theorem Rep.snoc {bs : Buf} {sss : List (List (List Byte))} (h : Rep bs sss) {ss : List (List Byte)} (hc : Clean ss)
    (rest : List (Option Byte)) : Rep (bs ++ [blk (enc ss) rest]) (sss ++ [ss]) := by
  induction h with
  | nil => exact .cons hc .nil
  | cons hc' _ ih => exact .cons hc' ih

theorem blk_inj {x y : List Byte} {r r' : List (Option Byte)} (h : blk x r = blk y r') : x = y := by
  simp only [blk, Block.mk.injEq] at h
  have := List.append_inj_left h.1 (by simpa using h.2)
  have h2 := congrArg (List.filterMap id) this
  simpa [List.filterMap_map] using h2

theorem Rep.unsnoc {bs : Buf} {b : Block} {sss : List (List (List Byte))} (h : Rep (bs ++ [b]) sss) :
    ∃ tss ss rest, sss = tss ++ [ss] ∧ Rep bs tss ∧ Clean ss ∧ b = blk (enc ss) rest := by
  induction bs generalizing sss with
  | nil =>
    cases h with
    | @cons ss rest _ sss hc h => cases h; exact ⟨[], ss, rest, rfl, .nil, hc, rfl⟩
  | cons c bs ih =>
    cases h with
    | @cons ss rest _ sss hc h =>
      obtain ⟨tss, ss', rest', h1, h2, h3, h4⟩ := ih h
      exact ⟨ss :: tss, ss', rest', by simp [h1], .cons hc h2, h3, h4⟩

theorem add_rep {bs : Buf} {sss : List (List (List Byte))} (h : Rep bs sss) (s : List Byte) (d : Option (List Byte))
    (h0 : (0 : Byte) ∉ s) (hsmall : (s.length + 1) * (bs.length + 1) ≤ 2147483647) :
    ∃ bs' ps tss, add bs s d = some bs' ∧ Split (d.getD []) s ps ∧ Rep bs' tss ∧ tss.flatten = sss.flatten ++ ps ∧
      bs'.length ≤ bs.length + 1 ∧ ∃ ss, tss.getLast? = some ss ∧ ss ≠ [] := by
  obtain ⟨pre, A, rest', h1, h2⟩ := add_blk bs s h.blks hsmall
  obtain ⟨ps, p1, p2, p3, p4⟩ := divide_blk pre A s rest' d h0
  have hadd : add bs s d = some (pre ++ [blk (A ++ enc ps) rest']) := by
    unfold add addBytes
    rw [h1]
    exact p4
  rcases h2 with ⟨rfl, rfl⟩ | ⟨rest, rfl⟩
  · refine ⟨_, ps, sss ++ [ps], hadd, p1, h.snoc p2 rest', by simp, by simp, ps, by simp, p3⟩
  · obtain ⟨tss, ss, rest2, q1, q2, q3, q4⟩ := h.unsnoc
    have hA : A = enc ss := blk_inj q4
    subst q1 hA
    refine ⟨_, ps, tss ++ [ss ++ ps], hadd, p1, ?_, by simp, by simp, ss ++ ps, by simp, by simp [p3]⟩
    rw [← enc_append]
    refine q2.snoc ?_ rest'
    intro x hx
    rcases List.mem_append.1 hx with hx | hx
    · exact q3 x hx
    · exact p2 x hx

/-! ### Appending -/

theorem backLoop_spec (E x : List Byte) (rest : List (Option Byte)) (h0 : (0 : Byte) ∉ x) (hE : E = [] ∨ (E.getLast? = some 0 ∧ 2 ≤ E.length)) :
    ∀ j, j ≤ x.length → backLoop ((E ++ (x ++ [0])).map some ++ rest) (E.length + j - 1) = some E.length := by
  intro j
  induction j with
  | zero =>
    intro _
    rcases hE with rfl | ⟨h1, h2⟩
    · rfl
    · obtain ⟨F, rfl⟩ := List.getLast?_eq_some_iff.1 h1
      simp at h2
      obtain ⟨k, hk⟩ : ∃ k, F.length = k + 1 := ⟨F.length - 1, by omega⟩
      have e : (F ++ [0]).length + 0 - 1 = k + 1 := by simp [hk]
      rw [e, backLoop]
      have hg : (((F ++ [0]) ++ (x ++ [0])).map some ++ rest)[k + 1]? = some (some (0 : Byte)) := by
        rw [← hk]; simp
      rw [hg]
      simp [hk]
  | succ j ih =>
    intro hj
    by_cases hz : E.length + j = 0
    · have : E = [] := List.eq_nil_of_length_eq_zero (by omega)
      subst this
      have : j = 0 := by simpa using hz
      subst this
      rfl
    · obtain ⟨k, hk⟩ : ∃ k, E.length + j = k + 1 := ⟨E.length + j - 1, by omega⟩
      have e : E.length + (j + 1) - 1 = k + 1 := by omega
      rw [e, backLoop]
      have hg : ((E ++ (x ++ [0])).map some ++ rest)[k + 1]? = some (some (x[j]'(by omega))) := by
        rw [← hk]
        simp only [List.map_append, List.append_assoc]
        rw [List.getElem?_append_right (by simp)]
        simp only [List.length_map]
        rw [show E.length + j - E.length = j by omega, List.getElem?_append_left (by simp; omega)]
        simp
      rw [hg]
      dsimp only
      have hne : x[j]'(by omega) ≠ 0 := fun e => h0 (e ▸ List.getElem_mem _)
      rw [if_neg hne]
      have := ih (by omega)
      rwa [show E.length + j - 1 = k by omega] at this

theorem append_rep {bs : Buf} {sss : List (List (List Byte))} (h : Rep bs sss) (t : List Byte) (d : Option (List Byte))
    (h0 : (0 : Byte) ∉ t) (hsmall : ((enc sss.flatten).length + t.length + 1) * (bs.length + 1) ≤ 2147483647)
    (I : List (List Byte)) (x : List Byte) (tss : List (List (List Byte))) (hl : sss = tss ++ [I ++ [x]]) (hI : I ≠ [[]]) :
    ∃ bs' ps uss, appendLast bs t d = some (some bs') ∧ Split (d.getD []) (x ++ t) ps ∧ Rep bs' uss ∧
      uss.flatten = (tss.flatten ++ I) ++ ps ∧ bs'.length ≤ bs.length + 1 ∧ ∃ ss, uss.getLast? = some ss ∧ ss ≠ [] := by
  subst hl
  have hbs : bs ≠ [] := by
    rintro rfl
    generalize hu : tss ++ [I ++ [x]] = u at h
    cases h
    simp at hu
  obtain ⟨pre, b, rfl⟩ : ∃ pre b, bs = pre ++ [b] := ⟨bs.dropLast, bs.getLast hbs, (List.dropLast_concat_getLast hbs).symm⟩
  obtain ⟨tss', ss, rest, q1, q2, q3, rfl⟩ := h.unsnoc
  have e := List.append_inj' q1 rfl
  obtain ⟨rfl, e2⟩ := e
  simp at e2
  subst e2
  have hx0 : (0 : Byte) ∉ x := q3 x (by simp)
  have hE : enc I = [] ∨ ((enc I).getLast? = some 0 ∧ 2 ≤ (enc I).length) := by
    rcases List.eq_nil_or_concat I with rfl | ⟨J, y, rfl⟩
    · exact .inl rfl
    · rw [List.concat_eq_append] at hI ⊢
      right
      refine ⟨by simp, ?_⟩
      cases J with
      | nil =>
        cases y with
        | nil => exact absurd rfl hI
        | cons c y => simp
      | cons z J => simp; omega
  have henc : enc (I ++ [x]) = enc I ++ (x ++ [0]) := by simp
  have hback := backLoop_spec (enc I) x rest hx0 hE x.length (Nat.le_refl _)
  unfold appendLast
  rw [List.getLast?_concat, List.dropLast_concat]
  dsimp only
  have e1 : (blk (enc (I ++ [x])) rest).used - 2 = (enc I).length + x.length - 1 := by
    rw [henc]; simp only [blk, List.length_append, List.length_singleton]; omega
  have e2 : (blk (enc (I ++ [x])) rest).mem = (enc I ++ (x ++ [0])).map some ++ rest := by rw [henc]; rfl
  rw [e1, e2, hback]
  dsimp only
  have e3 : ((enc I ++ (x ++ [0])).map some ++ rest).drop (enc I).length = x.map some ++ some 0 :: rest := by
    simp only [List.map_append, List.append_assoc]
    rw [show (enc I).length = ((enc I).map some).length by simp, List.drop_left]
    simp
  rw [e3, cstr_spec x rest hx0]
  dsimp only
  have e4 : (blk (enc (I ++ [x])) rest).used - (enc I).length = x.length + 1 := by
    rw [henc]; simp [blk]
  have e5 : (blk (enc (I ++ [x])) rest).used - (x.length + 1) = (enc I).length := by
    rw [henc]; simp [blk]
  rw [e4, e5, if_neg (by omega)]
  rw [show t.length + 1 + (x.length + 1) - 1 - (x.length + t.length + 1) = 0 by omega]
  simp only [List.replicate_zero, List.append_nil]
  have hrep : Rep (pre ++ [({ mem := (enc I ++ (x ++ [0])).map some ++ rest, used := (enc I).length } : Block)]) (tss ++ [I]) := by
    have := q2.snoc (ss := I) (fun y hy => q3 y (by simp [hy])) ((x ++ [0]).map some ++ rest)
    simpa [blk] using this
  have hxt : (0 : Byte) ∉ x ++ t := by simp [hx0, h0]
  have hsm : ((x ++ t).length + 1) * ((pre ++ [({ mem := (enc I ++ (x ++ [0])).map some ++ rest, used := (enc I).length } : Block)]).length + 1) ≤ 2147483647 := by
    refine Nat.le_trans (Nat.mul_le_mul ?_ ?_) hsmall
    · simp; omega
    · simp
  obtain ⟨bs', ps, uss, a1, a2, a3, a4, a5, a6⟩ := add_rep hrep (x ++ t) d hxt hsm
  refine ⟨bs', ps, uss, ?_, a2, a3, by simpa using a4, by simpa using a5, a6⟩
  have : (blk (enc (I ++ [x])) rest) = ⟨(enc I ++ (x ++ [0])).map some ++ rest, (blk (enc (I ++ [x])) rest).used⟩ := by rw [← e2]
  unfold add at a1
  rw [a1]
  rfl

end Verif.StringList
