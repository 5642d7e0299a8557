import Verif.Lemmas.Name
/-! C01–C04, C48: encoding and decoding of domain names. -/

namespace Verif.Name

/-! ### C01 -/

/-- C01.  A name of valid labels is written as a byte sequence such that, wherever the sequence lies in
a message and whatever surrounds it, reading it back into a buffer that can hold the text gives exactly
the text (NUL terminated), and the reader's advance is exactly the number of bytes written. -/
theorem name_roundtrip (ls : List (List Byte)) (hv : ValidName ls) (mem : Nat → Byte) (len p N : Nat)
    (hat : At mem p (labelize (text ls))) (hlen : p + (labelize (text ls)).length ≤ len)
    (hN : (text ls).length < N) :
    ∃ f0, ∀ f, f0 ≤ f →
      (getHostName mem len p (some N) f).out = .ok (labelize (text ls)).length (text ls ++ [0]) := by
  have hw := labelize_text hv
  rw [hw] at hat hlen ⊢
  have hd := denotes_wire (fun l hl => ⟨(hv l hl).1, (hv l hl).2.1⟩) hat hlen
  have hcap : (dotted ls).length ≤ N := by
    cases hls : ls with
    | nil => simp [dotted]
    | cons l ls' => rw [← hls, dotted_eq_text (by simp [hls])]; simp; omega
  obtain ⟨f0, hf0⟩ := getLoop_denotes hd true N (by omega) [] 0 false (by simpa using hcap)
  refine ⟨f0, fun f hf => ?_⟩
  unfold getHostName
  rw [hf0 f hf]
  cases hls : ls with
  | nil => simp [okWith, dotted, text]
  | cons l ls' =>
    rw [← hls, dotted_eq_text (by simp [hls])]
    unfold okWith
    cases h : ([] ++ (text ls ++ [46])) with
    | nil => simp at h
    | cons c t =>
      simp only [List.nil_append] at h
      simp [← h]

/-- C01, skipping: the length a reader skips over is the number of bytes written. -/
theorem name_skip (ls : List (List Byte)) (hv : ValidName ls) (mem : Nat → Byte) (len p : Nat)
    (hat : At mem p (labelize (text ls))) (hlen : p + (labelize (text ls)).length ≤ len) :
    ∃ f0, ∀ f, f0 ≤ f → (jumpOver mem p f).out = .ok (labelize (text ls)).length [] ∧
      (getHostName mem len p none f).out = .ok (labelize (text ls)).length [] := by
  have hw := labelize_text hv
  rw [hw] at hat hlen ⊢
  have hd := denotes_wire (fun l hl => ⟨(hv l hl).1, (hv l hl).2.1⟩) hat hlen
  obtain ⟨f1, h1⟩ := getLoop_skip hd false 2147483647 (by simp) 0
  obtain ⟨f2, h2⟩ := getLoop_skip hd true len (by simp) 0
  refine ⟨max f1 f2, fun f hf => ⟨?_, ?_⟩⟩
  · unfold jumpOver; rw [h1 f (by omega)]; simp
  · unfold getHostName; rw [h2 f (by omega)]; simp

/-- C01, size: the space computed before a name is written is the space it takes. -/
theorem name_size (ls : List (List Byte)) (hv : ValidName ls) :
    (labelize (text ls)).length = labelLength (text ls) := by
  rw [labelize_text hv, wire_length]
  unfold labelLength
  cases hls : ls with
  | nil => simp [dotted, text]
  | cons l ls' =>
    rw [← hls, if_neg (text_ne_nil (by simp [hls]) hv), dotted_eq_text (by simp [hls])]
    simp

/-- C01, compressed names: whatever name RFC 1035 assigns to a position, through any number of
compression pointers, is what the decoder delivers (as text), and skipping advances by the length in
place. -/
theorem compressed_name_decoded (mem : Nat → Byte) (len p k N : Nat) (ls : List (List Byte))
    (h : Denotes mem len p ls k) (hN : (text ls).length < N) :
    ∃ f0, ∀ f, f0 ≤ f → (getHostName mem len p (some N) f).out = .ok k (text ls ++ [0]) ∧
      (jumpOver mem p f).out = .ok k [] := by
  have hcap : (dotted ls).length ≤ N := by
    cases hls : ls with
    | nil => simp [dotted]
    | cons l ls' => rw [← hls, dotted_eq_text (by simp [hls])]; simp; omega
  obtain ⟨f0, hf0⟩ := getLoop_denotes h true N (by omega) [] 0 false (by simpa using hcap)
  obtain ⟨f1, h1⟩ := getLoop_skip h false 2147483647 (by simp) 0
  refine ⟨max f0 f1, fun f hf => ⟨?_, ?_⟩⟩
  · unfold getHostName
    rw [hf0 f (by omega)]
    cases hls : ls with
    | nil => simp [okWith, dotted, text]
    | cons l ls' =>
      rw [← hls, dotted_eq_text (by simp [hls])]
      unfold okWith
      cases h : ([] ++ (text ls ++ [46])) with
      | nil => simp at h
      | cons c t =>
        simp only [List.nil_append] at h
        simp [← h]
  · unfold jumpOver; rw [h1 f (by omega)]; simp

/-- The bytes of a message as memory, zero outside. -/
def memOf (l : List Byte) (i : Nat) : Byte := l.getD i 0

theorem memOf_at (l : List Byte) : At (memOf l) 0 l := by
  intro i hi
  simp [memOf, List.getD_eq_getElem?_getD, hi]

/-- Non-vacuity: `www.example.com`, twelve bytes into a message. -/
example : ValidName [str "www", str "example", str "com"] ∧
    labelize (str "www.example.com") = str "\x03www\x07example\x03com\x00" ∧
    (getHostName (memOf (List.replicate 12 0 ++ str "\x03www\x07example\x03com\x00")) 29 12
      (some 16) 10).out = .ok 17 (str "www.example.com\x00") := by
  refine ⟨?_, by decide +kernel, by decide +kernel⟩
  intro l hl
  simp only [List.mem_cons, List.not_mem_nil, or_false] at hl
  unfold ValidLabel
  rcases hl with rfl | rfl | rfl <;> decide +kernel

/-! ### C02 -/

/-- C02.  For every message, position, buffer size and number of steps: no write outside the buffer,
and success leaves a terminated string that fits. -/
theorem decode_never_overruns (mem : Nat → Byte) (len pos N fuel : Nat) :
    (getHostName mem len pos (some N) fuel).out ≠ .oob ∧
    (∀ b, (getHostName mem len pos (some N) fuel).out = .fail b → b.length ≤ N) ∧
    (∀ n b, (getHostName mem len pos (some N) fuel).out = .ok n b →
      b.length ≤ N ∧ ∃ t, b = t ++ [0]) := by
  have h : Safe N (getHostName mem len pos (some N) fuel).out := getLoop_safe (Nat.zero_le N)
  refine ⟨fun he => ?_, fun b he => ?_, fun n b he => ?_⟩ <;> rw [he] at h
  · exact h
  · exact h
  · exact h

/-- Non-vacuity, a buffer one byte too small: refused, within the buffer. -/
example : (getHostName (memOf (str "\x03www\x03com\x00")) 9 0 (some 7) 10).out = .fail (str "www\x00") ∧
    (getHostName (memOf (str "\x03www\x03com\x00")) 9 0 (some 8) 10).out
      = .ok 9 (str "www.com\x00") := by decide +kernel

/-- On failure the buffer need not hold a terminated string: a label running out of the message. -/
theorem failure_unterminated :
    ∃ mem len pos N fuel b, (getHostName mem len pos (some N) fuel).out = .fail b ∧ b ≠ [] ∧ 0 ∉ b :=
  ⟨memOf (str "\x03www\x09com\x00"), 9, 0, 64, 10, str "www.", by decide +kernel⟩

/-! ### C03 -/

/-- C03, the full claim: every decode ends. -/
def AlwaysTerminates : Prop := ∀ (mem : Nat → Byte) (len pos N : Nat), pos < len →
  ∃ fuel, (getHostName mem len pos (some N) fuel).out ≠ .noFuel

theorem self_pointer_loops (mem : Nat → Byte) (len pos N : Nat) (hp : isPtr (mem pos) = true)
    (hs : ptrTo mem pos = pos) (hl : pos ≤ len) (fuel : Nat) (buf : List Byte) (n : Nat) (red : Bool) :
    (getLoop mem true len (some N) fuel pos buf n red).out = .noFuel := by
  have h0 : mem pos ≠ 0 := by intro h; rw [h] at hp; exact absurd hp (by decide)
  induction fuel generalizing n red with
  | zero => rfl
  | succ f ih =>
    unfold getLoop
    simp only [h0, if_false, hp, if_true, hs, show ¬ pos > len by omega, Result.after]
    exact ih _ _

/-- C03 is false of the code: a query whose question name is a pointer to itself (`C0 0C` at offset
12) keeps the decoder busy for ever. -/
theorem always_terminates_false : ¬ AlwaysTerminates := by
  intro h
  obtain ⟨f, hf⟩ := h (memOf (List.replicate 12 0 ++ [0xC0, 0x0C, 0, 1, 0, 1])) 18 12 256 (by omega)
  exact hf (self_pointer_loops _ 18 12 256 (by decide +kernel) (by decide +kernel) (by omega) f [] 0 false)

/-- C03, partial: the decode ends when every pointer that stays within the message refers to an
earlier position.  Missing: pointers to themselves or forward. -/
theorem terminates_partial (mem : Nat → Byte) (len pos N : Nat)
    (hback : ∀ p, isPtr (mem p) = true → ptrTo mem p ≤ len → ptrTo mem p < p) :
    ∃ f0, ∀ fuel, f0 ≤ fuel → (getHostName mem len pos (some N) fuel).out ≠ .noFuel := by
  obtain ⟨f, hf⟩ := getLoop_terminates (hb := true) (len := len) (N := N) hback (N - 0) pos [] 0 false (by simp)
  exact ⟨f, fun g hg => by unfold getHostName; rw [getLoop_mono hf g hg]; exact hf⟩

/-- C03 for measuring a name without storing it: at most `len + 2` steps. -/
theorem measure_terminates (mem : Nat → Byte) (len pos : Nat) (fuel : Nat) (hf : len + 2 ≤ fuel) :
    (getHostName mem len pos none fuel).out ≠ .noFuel :=
  getLoop_none_terminates fuel pos [] 0 false (by omega) (by omega)

/-- Non-vacuity: a name whose pointer refers backwards. -/
example : (∀ p, isPtr (memOf (str "\x03com\x00\x03www" ++ [0xC0, 0]) p) = true →
      ptrTo (memOf (str "\x03com\x00\x03www" ++ [0xC0, 0])) p ≤ 11 →
      ptrTo (memOf (str "\x03com\x00\x03www" ++ [0xC0, 0])) p < p) ∧
    (getHostName (memOf (str "\x03com\x00\x03www" ++ [0xC0, 0])) 11 5 (some 20) 9).out
      = .ok 6 (str "www.com\x00") := by
  refine ⟨?_, by decide +kernel⟩
  intro p hp _
  by_cases h : p < 11
  · have key : ∀ p : Fin 11, isPtr (memOf (str "\x03com\x00\x03www" ++ [0xC0, 0]) p) = true →
      ptrTo (memOf (str "\x03com\x00\x03www" ++ [0xC0, 0])) p < p := by decide +kernel
    exact key ⟨p, h⟩ hp
  · have : memOf (str "\x03com\x00\x03www" ++ [0xC0, 0]) p = 0 := by
      unfold memOf
      rw [List.getD_eq_getElem?_getD, List.getElem?_eq_none]
      · rfl
      · have : (str "\x03com\x00\x03www" ++ [0xC0, 0]).length = 11 := by decide +kernel
        omega
    rw [this] at hp; exact absurd hp (by decide)

/-! ### C04 -/

/-- C04, the full claim: only bytes of the message are read. -/
def ReadsInside : Prop := ∀ (mem : Nat → Byte) (len pos : Nat) (cap : Option Nat) (fuel : Nat),
  pos < len → ∀ i ∈ (getHostName mem len pos cap fuel).reads, i < len

/-- C04 is false of the code: a message ending in a one-byte label length is read three bytes past its
end. -/
theorem reads_inside_false : ¬ ReadsInside := by
  intro h
  have := h (memOf [1, 65, 0xC0, 0]) 1 0 (some 9) 1
  exact absurd this (by decide +kernel)

/-- C04, partial: at most the three bytes after the message are read.  Missing: the three bytes. -/
theorem reads_inside_partial (mem : Nat → Byte) (len pos : Nat) (cap : Option Nat) (fuel : Nat)
    (hpos : pos < len) : ∀ i ∈ (getHostName mem len pos cap fuel).reads, i < len + 3 := by
  intro i hi
  have := getLoop_reads (mem := mem) (len := len) (cap := cap) (f := fuel) (pos := pos) (buf := [])
    (n := 0) (red := false) (by omega) i hi
  omega

/-- The bound of `reads_inside_partial` is attained. -/
example : (getHostName (memOf [1, 65, 0xC0, 0]) 1 0 (some 9) 2).reads = [0, 1, 2, 3] := by
  decide +kernel

/-- Skipping a name (`DNSJumpOverName`) is given no length at all: whatever bound is chosen, some
message makes it read beyond. -/
theorem skip_reads_unbounded (len B : Nat) :
    ∃ (mem : Nat → Byte) (fuel : Nat), (jumpOver mem 0 fuel).out ≠ .noFuel ∧
      ∃ i ∈ (jumpOver mem 0 fuel).reads, len + B ≤ i := by
  have key : ∀ (k pos n : Nat) (mem : Nat → Byte), (∀ i, pos ≤ i → i < pos + 2 * k → mem i = 1) →
      mem (pos + 2 * k) = 0 →
      (getLoop mem false 2147483647 none (k + 1) pos [] n false).out ≠ .noFuel ∧
      pos + 2 * k ∈ (getLoop mem false 2147483647 none (k + 1) pos [] n false).reads := by
    intro k
    induction k with
    | zero => intro pos n mem _ h0; unfold getLoop; simp at h0; simp [h0, finish]
    | succ k ih =>
      intro pos n mem h1 h0
      have hm : mem pos = 1 := h1 pos (by omega) (by omega)
      have := ih (pos + 2) (n + 2) mem (fun i hi hj => h1 i (by omega) (by omega))
        (by rw [show pos + 2 + 2 * k = pos + 2 * (k + 1) by omega]; exact h0)
      unfold getLoop
      simp only [hm, show (1 : Byte) ≠ 0 by decide, if_false, show isPtr 1 = false by decide,
        Bool.false_eq_true, false_and, Result.after, show (1 : Byte).toNat = 1 by decide,
        show pos + 1 + 1 = pos + 2 by omega, show n + (1 + 1) = n + 2 by omega]
      refine ⟨this.1, ?_⟩
      have h2 := this.2
      rw [show pos + 2 + 2 * k = pos + 2 * (k + 1) by omega] at h2
      exact List.mem_append_right _ h2
  have h := key (len + B) 0 0 (fun i => if i < 2 * (len + B) then 1 else 0)
    (by intro i _ hi; simp at hi; simp [hi]) (by simp)
  exact ⟨_, _, h.1, _, h.2, by omega⟩

/-! ### C48 -/

/-- C48, the full claim: two names that differ are never given the same text. -/
def TextDistinguishes : Prop := ∀ (mem mem' : Nat → Byte) (len len' p p' k k' N f n n' : Nat)
    (ls ls' : List (List Byte)) (b : List Byte),
  Denotes mem len p ls k → Denotes mem' len' p' ls' k' →
  (getHostName mem len p (some N) f).out = .ok n b →
  (getHostName mem' len' p' (some N) f).out = .ok n' b → ls = ls'

/-- C48 is false of the code: the one-label name `a.b` and the two-label name `a`,`b` are the same
text. -/
theorem text_distinguishes_false : ¬ TextDistinguishes := by
  intro h
  have h1 : Denotes (memOf (wire [str "a.b"])) 5 0 [str "a.b"] 5 := by
    have := denotes_wire (mem := memOf (wire [str "a.b"])) (len := 5) (p := 0) (ls := [str "a.b"])
      (by decide +kernel) (memOf_at _) (by decide +kernel)
    rwa [show (wire [str "a.b"]).length = 5 by decide +kernel] at this
  have h2 : Denotes (memOf (wire [str "a", str "b"])) 5 0 [str "a", str "b"] 5 := by
    have := denotes_wire (mem := memOf (wire [str "a", str "b"])) (len := 5) (p := 0)
      (ls := [str "a", str "b"])
      (by decide +kernel) (memOf_at _) (by decide +kernel)
    rwa [show (wire [str "a", str "b"]).length = 5 by decide +kernel] at this
  have := h _ _ _ _ _ _ _ _ 20 9 5 5 _ _ (str "a.b\x00") h1 h2 (by decide +kernel) (by decide +kernel)
  exact absurd this (by decide +kernel)

theorem wire_injective : ∀ {ls ls' : List (List Byte)}, ValidName ls → ValidName ls' →
    wire ls = wire ls' → ls = ls'
  | [], [], _, _, _ => rfl
  | [], l' :: ls', _, hv', h => by
    have := hv' l' (by simp)
    simp only [wire, List.cons.injEq] at h
    have h1 := congrArg UInt8.toNat h.1
    rw [u8_ofNat_toNat (by have := this.2.1; omega)] at h1
    have := this.1; rw [show (0 : Byte).toNat = 0 from rfl] at h1; omega
  | l :: ls, [], hv, _, h => by
    have := hv l (by simp)
    simp only [wire, List.cons.injEq] at h
    have h1 := congrArg UInt8.toNat h.1
    rw [u8_ofNat_toNat (by have := this.2.1; omega)] at h1
    have := this.1; rw [show (0 : Byte).toNat = 0 from rfl] at h1; omega
  | l :: ls, l' :: ls', hv, hv', h => by
    have a := hv l (by simp)
    have b := hv' l' (by simp)
    simp only [wire, List.cons.injEq] at h
    have h1 := congrArg UInt8.toNat h.1
    rw [u8_ofNat_toNat (by have := a.2.1; omega), u8_ofNat_toNat (by have := b.2.1; omega)] at h1
    obtain ⟨e1, e2⟩ := List.append_inj h.2 h1
    rw [e1, wire_injective (fun x hx => hv x (by simp [hx])) (fun x hx => hv' x (by simp [hx])) e2]

/-- C48, partial: names of labels without dots and NULs have different texts.  Missing: labels that
contain such bytes, which the wire format allows. -/
theorem text_distinguishes_partial (ls ls' : List (List Byte)) (hv : ValidName ls)
    (hv' : ValidName ls') (h : text ls = text ls') : ls = ls' :=
  wire_injective hv hv' (by rw [← labelize_text hv, ← labelize_text hv', h])

end Verif.Name
