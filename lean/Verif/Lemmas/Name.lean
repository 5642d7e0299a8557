import Verif.Model.Name
import Verif.Spec.Name

namespace Verif.Name

theorem isPtr_iff (c : Byte) : isPtr c = true ↔ 192 ≤ c.toNat := by
  have key : ∀ n : Fin 256, isPtr (UInt8.ofNat n) = true ↔ 192 ≤ n.val := by decide +kernel
  have := key ⟨c.toNat, c.toNat_lt⟩
  simpa using this

theorem At.append {mem : Nat → Byte} {p : Nat} {a b : List Byte} :
    At mem p (a ++ b) ↔ At mem p a ∧ At mem (p + a.length) b := by
  unfold At
  constructor
  · intro h
    refine ⟨fun i hi => ?_, fun i hi => ?_⟩
    · rw [h i (by simp; omega), List.getElem_append_left hi]
    · have := h (a.length + i) (by simp; omega)
      rw [List.getElem_append_right (by omega)] at this
      simp only [Nat.add_sub_cancel_left] at this
      rw [← this]; congr 1; omega
  · rintro ⟨h1, h2⟩ i hi
    by_cases h : i < a.length
    · rw [List.getElem_append_left h]; exact h1 i h
    · rw [List.getElem_append_right (by omega)]
      have := h2 (i - a.length) (by simp at hi; omega)
      rw [← this]; congr 1; omega

theorem At.cons {mem : Nat → Byte} {p : Nat} {c : Byte} {b : List Byte} :
    At mem p (c :: b) ↔ mem p = c ∧ At mem (p + 1) b := by
  have h := @At.append mem p [c] b
  simp only [List.singleton_append] at h
  rw [h]
  constructor
  · rintro ⟨h1, h2⟩; exact ⟨by simpa using h1 0 (by simp), by simpa using h2⟩
  · rintro ⟨h1, h2⟩
    refine ⟨?_, by simpa using h2⟩
    intro i hi
    have : i = 0 := by simpa using hi
    subst this; simpa using h1

theorem At.span {mem : Nat → Byte} {p : Nat} {b : List Byte} (h : At mem p b) :
    (span p b.length).map mem = b := by
  apply List.ext_getElem
  · simp [Name.span]
  · intro i h1 h2
    simp only [Name.span, List.getElem_map, List.getElem_range]
    exact h i h2

theorem At.of_map {mem : Nat → Byte} {p n : Nat} : At mem p ((Name.span p n).map mem) := by
  intro i hi
  simp [Name.span]

theorem getLoop_mono {mem : Nat → Byte} {hb : Bool} {len : Nat} {cap : Option Nat} {f pos buf n red}
    (h : (getLoop mem hb len cap f pos buf n red).out ≠ .noFuel) (g : Nat) (hfg : f ≤ g) :
    getLoop mem hb len cap g pos buf n red = getLoop mem hb len cap f pos buf n red := by
  induction f generalizing g pos buf n red with
  | zero => simp [getLoop] at h
  | succ f ih =>
    obtain ⟨g, rfl⟩ : ∃ g', g = g' + 1 := ⟨g - 1, by omega⟩
    unfold getLoop at h ⊢
    simp only at h ⊢
    split
    · rfl
    · rename_i hc
      simp only [hc, if_false] at h
      split
      · rename_i hp
        simp only [hp, if_true] at h
        cases cap with
        | none => rfl
        | some N =>
          simp only at h ⊢
          split
          · rfl
          · rename_i hl
            simp only [hl, if_false] at h
            rw [ih (by simpa [Result.after] using h) g (by omega)]
      · rename_i hp
        simp only [hp] at h
        split
        · rfl
        · rename_i hl
          simp only [hl] at h
          cases cap with
          | none =>
            simp only at h ⊢
            rw [ih (by simpa [Result.after] using h) g (by omega)]
          | some N =>
            simp only at h ⊢
            split
            · rename_i hcap
              simp only [hcap, if_true] at h
              split
              · rfl
              · rename_i b hput
                rw [hput] at h
                simp only at h
                rw [ih (by simpa [Result.after] using h) g (by omega)]
            · rfl

end Verif.Name

namespace Verif.Name

/-- Labels each followed by a dot: what the decoder has written before it terminates the text. -/
def dotted : List (List Byte) → List Byte
  | [] => []
  | l :: ls => l ++ 46 :: dotted ls

theorem dotted_ne_nil {ls : List (List Byte)} (h : ls ≠ []) : dotted ls ≠ [] := by
  cases ls with
  | nil => exact absurd rfl h
  | cons l ls => simp [dotted]

theorem dotted_eq_text {ls : List (List Byte)} (h : ls ≠ []) : dotted ls = text ls ++ [46] := by
  induction ls with
  | nil => exact absurd rfl h
  | cons l ls ih =>
    cases ls with
    | nil => simp [dotted, text]
    | cons l' ls => rw [dotted, ih (by simp), text]; simp

/-- The result of a successful decoding that has written `b`. -/
def okWith (cnt : Nat) (b : List Byte) : Outcome :=
  .ok cnt (match b with | [] => [0] | _ :: _ => b.dropLast ++ [0])

theorem finish_ok {N : Nat} (hN : 0 < N) (buf : List Byte) (n : Nat) (red : Bool) :
    finish (some N) buf n red = okWith (if red then n else n + 1) buf := by
  unfold finish okWith put
  cases buf with
  | nil => simp [hN, show 1 ≤ N from hN]
  | cons => simp

theorem u8_ofNat_toNat {n : Nat} (h : n < 256) : (UInt8.ofNat n).toNat = n := by
  simp only [UInt8.toNat_ofNat']; omega

/-- Decoding an RFC 1035 name writes its labels, and counts its length in place. -/
theorem getLoop_denotes {mem : Nat → Byte} {len p k : Nat} {ls : List (List Byte)}
    (h : Denotes mem len p ls k) (hb : Bool) (N : Nat) (hN : 0 < N) (buf : List Byte) (n : Nat)
    (red : Bool) (hcap : buf.length + (dotted ls).length ≤ N) :
    ∃ f0, ∀ f, f0 ≤ f → (getLoop mem hb len (some N) f p buf n red).out =
      okWith (if red then n else n + k) (buf ++ dotted ls) := by
  induction h generalizing buf n red with
  | root p h0 hp =>
    refine ⟨1, fun f hf => ?_⟩
    obtain ⟨f, rfl⟩ : ∃ g, f = g + 1 := ⟨f - 1, by omega⟩
    unfold getLoop
    simp only [h0, if_true, finish_ok hN, dotted, List.append_nil]
  | label p l ls k h1 h2 hc hl hp hr ih =>
    have hL : (mem p).toNat = l.length := by rw [hc, u8_ofNat_toNat (by omega)]
    have hne : mem p ≠ 0 := by
      intro h0; rw [h0] at hL; simp at hL; omega
    have hnp : isPtr (mem p) = false := by
      rw [Bool.eq_false_iff]; intro hh; rw [isPtr_iff] at hh; omega
    simp only [dotted, List.length_append, List.length_cons] at hcap
    obtain ⟨f0, ihf⟩ := ih (buf ++ (l ++ [46])) (if red then n else n + (l.length + 1)) red
      (by simp; omega)
    refine ⟨f0 + 1, fun f hf => ?_⟩
    obtain ⟨f, rfl⟩ : ∃ g, f = g + 1 := ⟨f - 1, by omega⟩
    unfold getLoop
    have hspan : (span (p + 1) (mem p).toNat).map mem = l := by rw [hL]; exact hl.span
    have hput : put N buf (l ++ [46]) = some (buf ++ (l ++ [46])) := by
      unfold put; rw [if_pos (by simp; omega)]
    have hbound : ¬ (hb = true ∧ p + (mem p).toNat > len) := by rw [hL]; omega
    simp only [hne, if_false, hnp, Bool.false_eq_true, hbound, hspan, hput]
    rw [if_pos (by omega)]
    simp only [Result.after, hL]
    rw [ihf f (by omega)]
    simp only [dotted, List.append_assoc, List.singleton_append]
    congr 1
    split
    · rfl
    · omega
  | pointer p q ls k hp hq hc hd hr ih =>
    have hP : (mem p).toNat = 192 + q / 256 := by rw [hc, u8_ofNat_toNat (by omega)]
    have hD : (mem (p + 1)).toNat = q % 256 := by
      rw [hd]; simp
    have hne : mem p ≠ 0 := by
      intro h0; rw [h0] at hP; simp at hP; omega
    have hisp : isPtr (mem p) = true := by rw [isPtr_iff]; omega
    have hto : ptrTo mem p = q := by unfold ptrTo; rw [hP, hD]; omega
    have hql : q ≤ len := by
      cases hr <;> omega
    obtain ⟨f0, ihf⟩ := ih buf (if red then n else n + 2) true hcap
    refine ⟨f0 + 1, fun f hf => ?_⟩
    obtain ⟨f, rfl⟩ : ∃ g, f = g + 1 := ⟨f - 1, by omega⟩
    unfold getLoop
    simp only [hne, if_false, hisp, if_true, hto, Result.after]
    rw [if_neg (by omega)]
    simp only
    rw [ihf f (by omega)]
    simp

theorem wire_length (ls : List (List Byte)) : (wire ls).length = (dotted ls).length + 1 := by
  induction ls with
  | nil => rfl
  | cons l ls ih => simp only [wire, dotted, List.length_cons, List.length_append, ih]; try omega

theorem denotes_wire {mem : Nat → Byte} {len p : Nat} {ls : List (List Byte)}
    (hv : ∀ l ∈ ls, 1 ≤ l.length ∧ l.length ≤ 63) (hat : At mem p (wire ls))
    (hlen : p + (wire ls).length ≤ len) : Denotes mem len p ls (wire ls).length := by
  induction ls generalizing p with
  | nil =>
    simp only [wire, At.cons] at hat
    simp only [wire, List.length_singleton] at hlen
    exact .root p hat.1 (by omega)
  | cons l ls ih =>
    simp only [wire] at hat hlen ⊢
    rw [At.cons, At.append] at hat
    obtain ⟨h1, h2, h3⟩ := hat
    simp only [List.length_cons, List.length_append] at hlen
    have hvl := hv l (by simp)
    have := ih (p := p + 1 + l.length) (fun l hl => hv l (by simp [hl])) h3 (by omega)
    have h := Denotes.label p l ls _ hvl.1 hvl.2 h1 h2 (by omega) this
    have he : (UInt8.ofNat l.length :: (l ++ wire ls)).length = l.length + 1 + (wire ls).length := by
      simp; omega
    rw [he]; exact h

theorem labelLoop_label {l : List Byte} (hl : ∀ c ∈ l, c ≠ 46) (done : List Byte) (cnt : Byte)
    (cur rest : List Byte) :
    labelLoop done cnt cur (l ++ rest) = labelLoop done (cnt + UInt8.ofNat l.length) (cur ++ l) rest := by
  induction l generalizing cnt cur with
  | nil => simp
  | cons c l ih =>
    have hc := hl c (by simp)
    simp only [List.cons_append, labelLoop, hc, ne_eq, not_false_eq_true, if_true]
    rw [ih (fun c hc => hl c (by simp [hc]))]
    congr 1
    · simp only [List.length_cons]
      apply UInt8.toNat.inj
      simp [UInt8.toNat_add, UInt8.toNat_ofNat']
      omega
    · simp

theorem labelLoop_text {ls : List (List Byte)} (hne : ls ≠ []) (hv : ∀ l ∈ ls, ∀ c ∈ l, c ≠ 46) (done : List Byte) :
    labelLoop done 0 [] (text ls) = done ++ wire ls := by
  induction ls generalizing done with
  | nil => exact absurd rfl hne
  | cons l ls ih =>
    have hl' : ∀ c ∈ l, c ≠ 46 := hv l (by simp)
    cases ls with
    | nil =>
      have := labelLoop_label hl' done 0 [] []
      simp only [List.append_nil] at this
      simp only [text, this, labelLoop, wire]
      simp
    | cons l' ls =>
      rw [text, labelLoop_label hl']
      simp only [labelLoop, List.nil_append]
      simp only [ne_eq, not_true_eq_false, if_false]
      rw [ih (by simp) (fun l hl => hv l (by simp [hl]))]
      simp [wire]

theorem pieces_of_valid {ls : List (List Byte)} (hv : ValidName ls) : Pieces ls :=
  ⟨by rintro rfl; have := (hv [] (by simp)).1; simp at this, fun l hl c hc => ((hv l hl).2.2 c hc).1⟩

theorem text_ne_nil_pieces {ls : List (List Byte)} (hne : ls ≠ []) (hv : Pieces ls) : text ls ≠ [] := by
  cases ls with
  | nil => exact absurd rfl hne
  | cons l ls =>
    cases ls with
    | nil =>
      have hl : l ≠ [] := by rintro rfl; exact hv.1 rfl
      simpa [text] using hl
    | cons => simp [text]

theorem text_ne_nil {ls : List (List Byte)} (hne : ls ≠ []) (hv : ValidName ls) : text ls ≠ [] := text_ne_nil_pieces hne (pieces_of_valid hv)

theorem labelize_pieces {ls : List (List Byte)} (hv : Pieces ls) : labelize (text ls) = wire ls := by
  cases hls : ls with
  | nil => rfl
  | cons l ls' =>
    have hne : ls ≠ [] := by simp [hls]
    rw [← hls]
    have ht := text_ne_nil_pieces hne hv
    unfold labelize
    split
    · rename_i h; exact absurd h ht
    · have := labelLoop_text hne hv.2 []
      simpa using this

theorem labelize_text {ls : List (List Byte)} (hv : ValidName ls) : labelize (text ls) = wire ls := labelize_pieces (pieces_of_valid hv)

/-- Every text is made of pieces. -/
theorem pieces_exist (t : List Byte) : ∃ ls, t = text ls ∧ Pieces ls := by
  suffices h : ∀ t : List Byte, ∃ l ls, t = text (l :: ls) ∧ ∀ x ∈ l :: ls, ∀ c ∈ x, c ≠ 46 by
    by_cases ht : t = []
    · exact ⟨[], by simp [ht, text], by simp, by simp⟩
    · obtain ⟨l, ls, h1, h2⟩ := h t
      exact ⟨l :: ls, h1, by rintro h; rw [h] at h1; exact ht h1, h2⟩
  intro t
  induction t with
  | nil => exact ⟨[], [], rfl, by simp⟩
  | cons c t ih =>
    obtain ⟨l, ls, h1, h2⟩ := ih
    by_cases hc : c = 46
    · refine ⟨[], l :: ls, by rw [text, hc, h1]; rfl, ?_⟩
      intro x hx
      rcases List.mem_cons.1 hx with rfl | hx
      · simp
      · exact h2 x hx
    · refine ⟨c :: l, ls, ?_, ?_⟩
      · cases ls with
        | nil => rw [h1]; rfl
        | cons => rw [h1]; rfl
      · intro x hx
        rcases List.mem_cons.1 hx with rfl | hx
        · intro d hd
          rcases List.mem_cons.1 hd with rfl | hd
          · exact hc
          · exact h2 l (by simp) d hd
        · exact h2 x (by simp [hx])

end Verif.Name

namespace Verif.Name

/-- Skipping a name (no buffer) counts its length in place. -/
theorem getLoop_skip {mem : Nat → Byte} {len p k : Nat} {ls : List (List Byte)}
    (h : Denotes mem len p ls k) (hb : Bool) (blen : Nat) (hbl : hb = true → len ≤ blen) (n : Nat) :
    ∃ f0, ∀ f, f0 ≤ f → (getLoop mem hb blen none f p [] n false).out = .ok (n + k) [] := by
  induction h generalizing n with
  | root p h0 hp =>
    refine ⟨1, fun f hf => ?_⟩
    obtain ⟨f, rfl⟩ : ∃ g, f = g + 1 := ⟨f - 1, by omega⟩
    unfold getLoop
    simp [h0, finish]
  | label p l ls k h1 h2 hc hl hp hr ih =>
    have hL : (mem p).toNat = l.length := by rw [hc, u8_ofNat_toNat (by omega)]
    have hne : mem p ≠ 0 := by
      intro h0; rw [h0] at hL; simp at hL; omega
    have hnp : isPtr (mem p) = false := by
      rw [Bool.eq_false_iff]; intro hh; rw [isPtr_iff] at hh; omega
    obtain ⟨f0, ihf⟩ := ih (n + (l.length + 1))
    refine ⟨f0 + 1, fun f hf => ?_⟩
    obtain ⟨f, rfl⟩ : ∃ g, f = g + 1 := ⟨f - 1, by omega⟩
    unfold getLoop
    have hbound : ¬ (hb = true ∧ p + l.length > blen) := by
      rintro ⟨hbt, hx⟩; have := hbl hbt; omega
    simp only [hne, if_false, hnp, Bool.false_eq_true, hL, hbound, Result.after]
    rw [ihf f (by omega)]
    congr 1; omega
  | pointer p q ls k hp hq hc hd hr ih =>
    have hP : (mem p).toNat = 192 + q / 256 := by rw [hc, u8_ofNat_toNat (by omega)]
    have hne : mem p ≠ 0 := by
      intro h0; rw [h0] at hP; simp at hP; omega
    have hisp : isPtr (mem p) = true := by rw [isPtr_iff]; omega
    refine ⟨1, fun f hf => ?_⟩
    obtain ⟨f, rfl⟩ : ∃ g, f = g + 1 := ⟨f - 1, by omega⟩
    unfold getLoop
    simp [hne, hisp, finish]

/-- Nothing outside a buffer of `N` bytes; success is terminated. -/
def Safe (N : Nat) : Outcome → Prop
  | .ok _ b => b.length ≤ N ∧ ∃ t, b = t ++ [0]
  | .fail b => b.length ≤ N
  | .oob => False
  | .noFuel => True

theorem put_some {N : Nat} {buf b : List Byte} (h : buf.length + b.length ≤ N) :
    put N buf b = some (buf ++ b) := by unfold put; rw [if_pos h]

theorem finish_safe {N : Nat} {buf : List Byte} (h : buf.length ≤ N) (n : Nat) (red : Bool) :
    Safe N (finish (some N) buf n red) := by
  cases buf with
  | nil =>
    by_cases hN : 0 < N
    · have hp : put N [] [0] = some [0] := put_some (by simp; omega)
      simp only [finish, hN, if_true, hp]
      exact ⟨by simp; omega, [], rfl⟩
    · simp [finish, hN, Safe]
  | cons c b => exact ⟨by simpa using h, _, rfl⟩

theorem terminate_safe {N : Nat} {buf : List Byte} (h : buf.length ≤ N) : Safe N (terminate N buf) := by
  cases buf with
  | nil =>
    by_cases hN : 0 < N
    · have hp : put N [] [0] = some [0] := put_some (by simp; omega)
      simp only [terminate, hN, if_true, hp]
      show [(0 : Byte)].length ≤ N
      simp; omega
    · simp [terminate, hN, Safe]
  | cons c b => simpa [terminate, Safe] using h

theorem getLoop_safe {mem : Nat → Byte} {hb : Bool} {len N f pos : Nat} {buf : List Byte} {n : Nat}
    {red : Bool} (hbuf : buf.length ≤ N) :
    Safe N (getLoop mem hb len (some N) f pos buf n red).out := by
  induction f generalizing pos buf n red with
  | zero => simp [getLoop, Safe]
  | succ f ih =>
    unfold getLoop
    simp only
    split
    · exact finish_safe hbuf _ _
    · split
      · split
        · exact hbuf
        · exact ih hbuf
      · split
        · exact hbuf
        · split
          · rename_i hcap
            rw [put_some (by simp [span]; omega)]
            exact ih (by simp [span]; omega)
          · exact terminate_safe hbuf

/-- How far the loop can read when it has a body: less than 3 bytes past the message. -/
theorem getLoop_reads {mem : Nat → Byte} {len : Nat} {cap : Option Nat} {f pos : Nat} {buf : List Byte}
    {n : Nat} {red : Bool} (hpos : pos ≤ len + 1) :
    ∀ i ∈ (getLoop mem true len cap f pos buf n red).reads, i ≤ len + 2 := by
  induction f generalizing pos buf n red with
  | zero => simp [getLoop]
  | succ f ih =>
    intro i
    unfold getLoop
    simp only
    split
    · simp; omega
    · split
      · cases cap with
        | none => simp; omega
        | some N =>
          simp only
          split
          · simp; omega
          · rename_i hp
            simp only [Result.after, List.mem_append, List.mem_cons, List.not_mem_nil, or_false]
            rintro ((rfl | rfl) | h)
            · omega
            · omega
            · exact ih (by omega) i h
      · split
        · simp; omega
        · rename_i hl
          simp only [true_and] at hl
          cases cap with
          | none =>
            simp only [Result.after, List.singleton_append, List.mem_cons]
            rintro (rfl | h)
            · omega
            · exact ih (by omega) i h
          | some N =>
            simp only
            split
            · split
              · simp
              · simp only [Result.after, List.cons_append, List.mem_cons, List.mem_append, span,
                  List.mem_map, List.mem_range]
                rintro (rfl | ⟨j, hj, rfl⟩ | h)
                · omega
                · omega
                · exact ih (by omega) i h
            · simp; omega

/-- Skipping a name inside a message of known length always ends. -/
theorem getLoop_none_terminates {mem : Nat → Byte} {len : Nat} (f pos : Nat) (buf : List Byte)
    (n : Nat) (red : Bool) (h1 : 1 ≤ f) (hf : len + 1 < pos + f) :
    (getLoop mem true len none f pos buf n red).out ≠ .noFuel := by
  induction f generalizing pos n red with
  | zero => omega
  | succ f ih =>
    unfold getLoop
    by_cases h0 : mem pos = 0
    · simp [h0, finish]
    · by_cases hp : isPtr (mem pos) = true
      · simp [h0, hp, finish]
      · by_cases hl : pos + (mem pos).toNat > len
        · simp only [h0, if_false, hp, hl]; simp
        · simp only [h0, if_false, hp, hl, Bool.false_eq_true, and_false, Result.after]
          have : (mem pos).toNat ≠ 0 := fun h => h0 (UInt8.toNat_inj.mp (by simpa using h))
          exact ih _ _ _ (by omega) (by omega)

/-- Termination: lexicographic in the space left in the buffer and, while following pointers, in the
position, provided every pointer that lies in the message points strictly backwards. -/
theorem getLoop_terminates {mem : Nat → Byte} {hb : Bool} {len N : Nat}
    (hback : ∀ p, isPtr (mem p) = true → ptrTo mem p ≤ len → ptrTo mem p < p)
    (room pos : Nat) (buf : List Byte) (n : Nat) (red : Bool) (hroom : N - buf.length ≤ room) :
    ∃ f, (getLoop mem hb len (some N) f pos buf n red).out ≠ .noFuel := by
  induction room generalizing pos buf n red with
  | zero =>
    induction pos using Nat.strongRecOn generalizing n red with
    | _ pos ihp =>
      by_cases h0 : mem pos = 0
      · refine ⟨1, ?_⟩
        have := @finish_safe
        unfold getLoop
        simp only [h0, if_true]
        unfold finish; simp only; split
        · split
          · split <;> simp
          · simp
        · simp
      · by_cases hp : isPtr (mem pos) = true
        · by_cases hl : ptrTo mem pos > len
          · exact ⟨1, by unfold getLoop; simp [h0, hp, hl]⟩
          · obtain ⟨f, hf⟩ := ihp _ (hback pos hp (by omega)) (if red then n else n + 2) true
            refine ⟨f + 1, ?_⟩
            unfold getLoop
            simp only [h0, if_false, hp, if_true, hl, Result.after]
            exact hf
        · refine ⟨1, ?_⟩
          unfold getLoop
          have hc : ¬ (buf.length + (mem pos).toNat + 1 ≤ N) := by omega
          simp only [h0, if_false, hp, hc, Bool.false_eq_true]
          split
          · simp
          · unfold terminate; split
            · split
              · split <;> simp
              · simp
            · simp
  | succ room ih =>
    induction pos using Nat.strongRecOn generalizing n red with
    | _ pos ihp =>
      by_cases h0 : mem pos = 0
      · refine ⟨1, ?_⟩
        unfold getLoop
        simp only [h0, if_true]
        unfold finish; simp only; split
        · split
          · split <;> simp
          · simp
        · simp
      · by_cases hp : isPtr (mem pos) = true
        · by_cases hl : ptrTo mem pos > len
          · exact ⟨1, by unfold getLoop; simp [h0, hp, hl]⟩
          · obtain ⟨f, hf⟩ := ihp _ (hback pos hp (by omega)) (if red then n else n + 2) true
            refine ⟨f + 1, ?_⟩
            unfold getLoop
            simp only [h0, if_false, hp, if_true, hl, Result.after]
            exact hf
        · by_cases hl : hb = true ∧ pos + (mem pos).toNat > len
          · exact ⟨1, by unfold getLoop; simp only [h0, if_false, hp, hl]; simp⟩
          · by_cases hc : buf.length + (mem pos).toNat + 1 ≤ N
            · have hput : put N buf ((span (pos + 1) (mem pos).toNat).map mem ++ [46]) =
                  some (buf ++ ((span (pos + 1) (mem pos).toNat).map mem ++ [46])) :=
                put_some (by simp [span]; omega)
              obtain ⟨f, hf⟩ := ih (pos + 1 + (mem pos).toNat)
                (buf ++ ((span (pos + 1) (mem pos).toNat).map mem ++ [46]))
                (if red then n else n + ((mem pos).toNat + 1)) red (by simp [span]; omega)
              refine ⟨f + 1, ?_⟩
              unfold getLoop
              simp only [h0, if_false, hp, hl, hc, if_true, hput, Result.after, Bool.false_eq_true]
              exact hf
            · refine ⟨1, ?_⟩
              unfold getLoop
              simp only [h0, if_false, hp, hl, hc, Bool.false_eq_true]
              unfold terminate; split
              · split
                · split <;> simp
                · simp
              · simp

end Verif.Name
