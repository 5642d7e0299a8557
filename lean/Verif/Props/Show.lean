import Verif.Lemmas.ShowExact
/-! C94, C95, C96: the text of a message for the log. -/

namespace Verif.Show
open Parser Name Message IpText

/-! ### C94 -/

/-- C94, the full claim: whatever the message, the text does not overrun the buffer of 1024 bytes. -/
def NeverOverruns : Prop := ∀ (b : List Byte) (len fuel : Nat), getAll 1024 1024 b len fuel ≠ .error .overrun

/-- A message that announces 196605 records: a TXT record that fills the text up to the last bytes, and one more. -/
def longHead : List Byte := [0, 1, 0x81, 0x80, 0, 1, 255, 255, 255, 255, 255, 255, 0, 0, 1, 0, 1]
def longTxt : List Byte :=
  [0, 0, 16, 0, 1, 0, 0, 0, 0, 3, 228] ++
    ((255 :: List.replicate 255 97) ++ ((255 :: List.replicate 255 97) ++ ((255 :: List.replicate 255 97) ++ (227 :: List.replicate 227 97))))
def longMsg : List Byte := longHead ++ (longTxt ++ [0, 0, 1, 0, 1, 0, 0, 0, 0, 0, 4, 1, 2, 3, 4])

def overruns : Except Fault (List Byte) → Bool
  | .error .overrun => true
  | _ => false

theorem overruns_iff {r : Except Fault (List Byte)} : overruns r = true ↔ r = .error .overrun := by
  unfold overruns; split <;> simp_all

/-- C94 is false of the code: 22 bytes are kept for the last line, but the number in it can have six digits, and then it has 24
bytes with the terminator. -/
theorem never_overruns_false : ¬ NeverOverruns := by
  intro h
  have key : overruns (getAll 1024 1024 longMsg longMsg.length 10) = true := by decide +kernel
  exact h longMsg longMsg.length 10 (overruns_iff.1 key)

/-- C94, partial: not with fewer than 100000 records announced. -/
theorem never_overruns_partial (b : List Byte) (len fuel : Nat) (h : announced b < 100000) : getAll 1024 1024 b len fuel ≠ .error .overrun :=
  getAll_safe (k := 4) (fun c hc => by rw [announced_eq hc]; exact h) (by omega) (by omega)

/-- C94, partial: never by more than one byte. -/
theorem one_byte_partial (cap size : Nat) (hc : size + 1 ≤ cap) (b : List Byte) (len fuel : Nat) : getAll cap size b len fuel ≠ .error .overrun :=
  getAll_safe (k := 5) (fun c hc => by rw [announced_eq hc]; have := announced_lt b; omega) (by omega) (by omega)

/-- The same for buffers of any size. -/
theorem any_size_partial (cap size : Nat) (hc : size ≤ cap) (b : List Byte) (len fuel : Nat) (h : announced b < 100000) :
    getAll cap size b len fuel ≠ .error .overrun :=
  getAll_safe (k := 4) (fun c hc => by rw [announced_eq hc]; exact h) (by omega) hc

example : announced longMsg = 196605 := by decide +kernel

/-! ### C95 -/

/-- C95, the full claim: the text shows what each record says, whatever its class, and depends on nothing else. -/
def ShowsRecords : Prop :=
  ∀ (m : Msg) (fss : List (List Field)), m.Valid → m.qs ≠ [] → m.bytes.length < 65536 → SaysOf (fun _ => True) m fss →
    ∃ fss', SaysOf (fun _ => True) m fss' ∧ ∀ post, ∃ f0, ∀ fuel, f0 ≤ fuel →
      ∃ out, getAll 1024 1024 (m.bytes ++ post) m.bytes.length fuel = .ok out ∧ Shows 1024 fss' out

theorem fields_ne {b : List Byte} {row t : Nat} {d : List Byte} {fs : List Field} (h : Fields b row t d fs) : fs ≠ [] := by
  cases h <;> simp

/-- C95, partial: for messages whose records are of class IN (or OPT).  What is shown does not depend on the bytes behind the
message. -/
theorem shows_records_partial (cap size : Nat) (m : Msg) (fss : List (List Field)) (hc : size ≤ cap) (hs : 23 ≤ size) (hm : m.Valid)
    (hq : m.qs ≠ []) (hlen : m.bytes.length < 65536) (hL : SaysOf Internet m fss) :
    ∃ fss', SaysOf Internet m fss' ∧ ∀ post, ∃ f0, ∀ fuel, f0 ≤ fuel →
      ∃ out, getAll cap size (m.bytes ++ post) m.bytes.length fuel = .ok out ∧ Shows size fss' out := by
  have hq' : 0 < m.qs.length := List.length_pos_iff.mpr hq
  have h12 : m.header.length = 12 := by simp [Msg.header, hm.head, u16_length]
  have hall : (Msg.counts m).all = m.qs.length + m.an.length + m.ns.length + m.ar.length := rfl
  have hrl := recordsOf_length m
  have hpre : (m.header ++ qBytes m.qs).length = 12 + (qBytes m.qs).length := by simp [h12]
  have hrv : ∀ r ∈ m.an ++ (m.ns ++ m.ar), r.Valid := by
    intro r hr
    simp only [List.mem_append] at hr
    rcases hr with h | h | h
    · exact hm.an r h
    · exact hm.ns r h
    · exact hm.ar r h
  have hrr : rrBytes (m.an ++ (m.ns ++ m.ar)) = rrBytes m.an ++ (rrBytes m.ns ++ rrBytes m.ar) := by simp [rrBytes]
  have hnum : m.an.length + m.ns.length + m.ar.length < 100000 := by
    have h1 := rrBytes_length hrv
    have h2 : m.bytes.length = 12 + (qBytes m.qs).length + (rrBytes (m.an ++ (m.ns ++ m.ar))).length := by
      rw [hrr]; simp [Msg.bytes, Msg.body, h12]; omega
    simp only [List.length_append] at h1
    omega
  obtain ⟨fss', hL', hf0⟩ := showLoop_records (b := m.bytes) (c := Msg.counts m) (recordsOf m) (pre := m.header ++ qBytes m.qs)
    (n := m.qs.length + 1) (rest := []) (fss := fss)
    (by
      intro x hx
      simp only [recordsOf, List.mem_append, List.mem_map] at hx
      rcases hx with ⟨r, hr, rfl⟩ | ⟨r, hr, rfl⟩ | ⟨r, hr, rfl⟩
      · exact ⟨hm.an r hr, by simp, by simp⟩
      · exact ⟨hm.ns r hr, by simp, by simp⟩
      · exact ⟨hm.ar r hr, by simp, by simp⟩)
    (by rw [recordsOf_snd, hrr]; simp [Msg.bytes, Msg.body])
    (recordsOf_purpose hq') (by rw [hrl, hall]; omega) (by rw [recordsOf_snd, hpre]; exact hL)
  rw [recordsOf_snd, hpre] at hL'
  refine ⟨fss', hL', fun post => ?_⟩
  obtain ⟨it, d, hg, -, hitn, hpos, hnext⟩ := gotoAnswers_msg hm hq post m.bytes.length (Nat.le_refl _)
  obtain ⟨f0, hf0⟩ := hf0 post
  refine ⟨f0, ?_⟩
  intro fuel hf
  have hfl : fss'.length = (recordsOf m).length := by rw [hL'.length, ← recordsOf_snd, List.length_map]
  have hnx : next (m.bytes ++ post) m.bytes.length (Msg.counts m) it =
      (if recordsOf m = [] then some ({ it with pos := none, num := 0 }, none)
        else look (m.bytes ++ post) m.bytes.length (Msg.counts m) it (m.header ++ qBytes m.qs).length (m.qs.length + 1)) := by
    by_cases hr : recordsOf m = []
    · rw [if_pos hr]
      obtain ⟨p, hp⟩ := hpos
      refine next_end hp ?_
      rw [hr] at hrl
      simp at hrl
      omega
    · rw [if_neg hr, hpre]
      have : 0 < (recordsOf m).length := List.length_pos_iff.mpr hr
      refine hnext (by omega) _ ?_
      have : m.bytes ++ post = (m.header ++ qBytes m.qs) ++ (rrBytes m.an ++ (rrBytes m.ns ++ rrBytes m.ar) ++ post) := by simp [Msg.bytes, Msg.body]
      rw [this, List.take_left' hpre]
  obtain ⟨k, hk1, hk2, hk3⟩ := hf0 fuel hf cap ((Msg.counts m).all + 2) it [] ((size : Int) - 22) hnx (by omega) (by omega) (by simp; omega) (by omega)
  have hana : (((Msg.counts m).an : Int) + (Msg.counts m).ns + (Msg.counts m).ar) = ((recordsOf m).length : Int) := by
    rw [hrl]
    have e1 : (Msg.counts m).an = m.an.length := rfl
    have e2 : (Msg.counts m).ns = m.ns.length := rfl
    have e3 : (Msg.counts m).ar = m.ar.length := rfl
    omega
  have hlen12 : 12 ≤ m.bytes.length := by simp [Msg.bytes, h12]
  have hio : initOk m.bytes.length = true := by unfold initOk; simpa using hlen12
  have hG : getAll cap size (m.bytes ++ post) m.bytes.length fuel =
      match showLoop (m.bytes ++ post) m.bytes.length fuel cap (Msg.counts m) ((Msg.counts m).all + 2) it [] ((size : Int) - 22) ((recordsOf m).length : Int) with
      | .error e => .error e
      | .ok [] => .ok (if ((recordsOf m).length : Int) = 0 then str "   Nothing.\n" else [])
      | .ok t => .ok t := by
    unfold getAll
    rw [if_neg (by omega), if_neg (by rw [hio]; simp), counts_eq hm post]
    dsimp only
    rw [hana]
    rw [if_neg (by split <;> simp [str] <;> omega), hg]
    dsimp only
    generalize showLoop (m.bytes ++ post) m.bytes.length fuel cap (Msg.counts m) ((Msg.counts m).all + 2) it [] ((size : Int) - 22) ((recordsOf m).length : Int) = o
    cases o with
    | error e => rfl
    | ok l => cases l <;> rfl
  rw [hG]
  by_cases hlt : k < (recordsOf m).length
  · rw [if_pos hlt] at hk3
    obtain ⟨t, ht, hmt⟩ := more_decimal (n := ((recordsOf m).length : Int) - k) (by omega)
    have hne : ∃ x l, shown (fss'.take k) ++ more (((recordsOf m).length : Int) - k) = x :: l := by
      cases hh : shown (fss'.take k) ++ more (((recordsOf m).length : Int) - k) with
      | nil => rw [hmt] at hh; simp [str] at hh
      | cons x l => exact ⟨x, l, rfl⟩
    obtain ⟨x, l, hxl⟩ := hne
    refine ⟨shown (fss'.take k) ++ more (((recordsOf m).length : Int) - k), ?_, k, by omega, by omega, ?_⟩
    · rw [hk3.1, List.nil_append, hxl]
    · rw [if_pos (by omega)]
      refine ⟨⟨t, ?_, by rw [hmt]⟩, by have := hk3.2; omega⟩
      rw [show fss'.length - k = (((recordsOf m).length : Int) - k).toNat by omega]
      exact ht
  · rw [if_neg hlt] at hk3
    have hkl : fss'.take k = fss' := List.take_of_length_le (by omega)
    by_cases h0 : fss' = []
    · have hr0 : (recordsOf m).length = 0 := by rw [← hfl, h0]; rfl
      refine ⟨str "   Nothing.\n", ?_, k, by omega, by omega, ?_⟩
      · rw [hk3, h0, hr0]; simp [shown]
      · rw [if_neg (by omega), if_pos h0]
    · have hne : ∃ x l, shown fss' = x :: l := by
        cases fss' with
        | nil => exact absurd rfl h0
        | cons fs fss' =>
          rw [shown_cons]
          have : fs ≠ [] := by
            have hh : Lines Internet m.bytes (12 + (qBytes m.qs).length) (m.an ++ (m.ns ++ m.ar)) (fs :: fss') := hL'
            generalize m.an ++ (m.ns ++ m.ar) = rs at hh
            cases hh with
            | cons _ hF _ => exact fields_ne hF
          obtain ⟨x, t, hxt⟩ := linesOf_ne this
          exact ⟨x, t ++ shown fss', by rw [hxt]; rfl⟩
      obtain ⟨x, l, hxl⟩ := hne
      refine ⟨shown fss', ?_, k, by omega, by omega, ?_⟩
      · rw [hk3, List.nil_append, hxl]
      · rw [if_neg (by omega), if_neg h0]

/-- The text of a run that ends. -/
def textOf : Except Fault (List Byte) → Option (List Byte)
  | .ok t => some t
  | .error _ => none

/-- A message with one record, given by its type, class and data. -/
def oneRecord (type klass : Nat) (rdata : List Byte) : Msg := ⟨[0, 1, 129, 128], [⟨[1, 97, 0], 1, 1⟩], [⟨[192, 12], type, klass, 60, rdata⟩], [], []⟩

theorem oneRecord_valid {type klass : Nat} {rdata : List Byte} (h1 : 0 < type) (h2 : type < 65536) (h3 : 0 < klass) (h4 : klass < 65536)
    (h5 : rdata.length < 65536) : (oneRecord type klass rdata).Valid := by
  refine ⟨rfl, ?_, ?_, by simp [oneRecord], by simp [oneRecord], by simp [oneRecord], by simp [oneRecord], by simp [oneRecord], by simp [oneRecord]⟩
  · intro q hq
    simp only [oneRecord, List.mem_singleton] at hq
    subst hq
    exact ⟨.label [97] [0] (by simp) (by simp) .root, by simp, by simp, by simp, by simp⟩
  · intro r hr
    simp only [oneRecord, List.mem_singleton] at hr
    subst hr
    exact ⟨.pointer _ _ (by decide), h1, h2, h3, h4, by simp, h5⟩

/-- C95 is false of the code for other classes: a record of class CH is not shown, although there is room. -/
theorem shows_records_false : ¬ ShowsRecords := by
  intro h
  have hS : SaysOf (fun _ => True) (oneRecord 16 3 []) [[(str "TXT", [])]] := by
    refine .cons trivial ?_ (.nil _)
    exact .txt (ss := []) (by simp)
  obtain ⟨fss', hL, hf⟩ := h (oneRecord 16 3 []) _ (oneRecord_valid (by omega) (by omega) (by omega) (by omega) (by simp)) (by simp [oneRecord]) (by decide) hS
  obtain ⟨f0, hf⟩ := hf []
  have hfs : fss' = [[(str "TXT", [])]] := by
    have hL2 : Lines (fun _ => True) (oneRecord 16 3 []).bytes (12 + (qBytes (oneRecord 16 3 []).qs).length) [⟨[192, 12], 16, 3, 60, []⟩] fss' := hL
    cases hL2 with
    | cons _ hF hN =>
      cases hN
      simp only at hF
      have key : ∀ t d fs, Fields (oneRecord 16 3 []).bytes (12 + (qBytes (oneRecord 16 3 []).qs).length + 2 + 10) t d fs → t = 16 → d = [] →
          fs = [(str "TXT", [])] := by
        intro t d fs hF ht hd
        cases hF with
        | @txt ss hss =>
          cases ss with
          | nil => rfl
          | cons s ss => simp at hd
        | name ht' => omega
        | other ht' => subst ht; simp [shownTypes] at ht'
        | _ => omega
      rw [key _ _ _ hF rfl rfl]
  subst hfs
  obtain ⟨out, hout, k, hk1, hk2, hk3⟩ := hf f0 (Nat.le_refl _)
  have hact : ∀ fuel, textOf (getAll 1024 1024 ((oneRecord 16 3 []).bytes ++ []) (oneRecord 16 3 []).bytes.length fuel) = some (str "   And 1 More ...\n") := by
    intro fuel
    have hc : counts ((oneRecord 16 3 []).bytes ++ []) = some ⟨1, 1, 0, 0⟩ := by decide +kernel
    have hg : gotoAnswers ((oneRecord 16 3 []).bytes ++ []) (oneRecord 16 3 []).bytes.length ⟨1, 1, 0, 0⟩ Itr.init = some ⟨some 12, 1, .question, 1, 1, 0⟩ := by
      decide +kernel
    have hn : next ((oneRecord 16 3 []).bytes ++ []) (oneRecord 16 3 []).bytes.length ⟨1, 1, 0, 0⟩ ⟨some 12, 1, .question, 1, 1, 0⟩ =
        some (⟨some 19, 2, .answer, 16, 3, 0⟩, some 19) := by decide +kernel
    have hr : rowData ((oneRecord 16 3 []).bytes ++ []) 19 = some 31 := by decide +kernel
    have hm : more 1 = str "   And 1 More ...\n" := by decide +kernel
    have hl : (oneRecord 16 3 []).bytes.length = 31 := by decide
    unfold getAll
    rw [if_neg (by omega), if_neg (by rw [hl]; decide), hc]
    simp only [hg, Counts.all]
    unfold showLoop
    simp only [hn, hr, textify]
    simp [hm, textOf, str]
  have ho : out = str "   And 1 More ...\n" := by
    have := hact f0
    rw [hout] at this
    simpa [textOf] using this
  subst ho
  by_cases hk : k < 1
  · rw [if_pos (by simpa using hk)] at hk3
    have hk0 : k = 0 := by omega
    subst hk0
    exact absurd hk3.2 (by decide)
  · rw [if_neg (by simpa using hk)] at hk3
    revert hk3
    decide

/-- C95: the text depends on the message only, if its records are as they should be; the claim for all messages. -/
def DependsOnMessage : Prop :=
  ∀ (m : Msg) (post post' : List Byte) (fuel : Nat), m.Valid → m.qs ≠ [] → 24 ≤ post.length → 24 ≤ post'.length →
    textOf (getAll 1024 1024 (m.bytes ++ post) m.bytes.length fuel) = textOf (getAll 1024 1024 (m.bytes ++ post') m.bytes.length fuel)

/-- It does not: four bytes are shown for an A record that has none, those that happen to lie behind the message. -/
theorem depends_on_message_false : ¬ DependsOnMessage := by
  intro h
  have := h (oneRecord 1 1 []) (List.replicate 24 7) (List.replicate 24 8) 0 (oneRecord_valid (by omega) (by omega) (by omega) (by omega) (by simp)) (by simp [oneRecord])
    (by simp) (by simp)
  exact absurd this (by decide +kernel)

/-- Non-vacuity: a message with an address and an alias. -/
def sample : Msg := ⟨[0, 1, 129, 128], [⟨[1, 97, 0], 1, 1⟩], [⟨[192, 12], 5, 1, 60, [1, 98, 192, 12]⟩, ⟨[1, 98, 192, 12], 1, 1, 60, [10, 0, 0, 7]⟩], [], [⟨[0], 41, 1280, 0, []⟩]⟩

example : textOf (getAll 1024 1024 sample.bytes sample.bytes.length 9) =
    some (str "   Canonical Name: b.a\n   IPv4 Address: 10.0.0.7\n   OPT: Pseudo-RR\n") := by decide +kernel
example : textOf (getAll 1024 100 sample.bytes sample.bytes.length 9) =
    some (str "   Canonical Name: b.a\n   IPv4 Address: 10.0.0.7\n   OPT: Pseudo-RR\n") := by decide +kernel
example : textOf (getAll 1024 85 sample.bytes sample.bytes.length 9) =
    some (str "   Canonical Name: b.a\n   IPv4 Address: 10.0.0.7\n   And 1 More ...\n") := by decide +kernel
example : textOf (getAll 1024 1024 ({ sample with an := [], ar := [] } : Msg).bytes 19 9) = some (str "   Nothing.\n") := by decide +kernel

example : ∃ fss, SaysOf Internet sample fss := by
  refine ⟨_, .cons (.inl rfl) (.name (ls := [[98], [97]]) (.inr (.inl rfl)) (rawLabel_ok 5) ⟨by decide, by decide⟩ ?_)
    (.cons (.inl rfl) (.a (dec_decimal _) (dec_decimal _) (dec_decimal _) (dec_decimal _)) (.cons (.inr rfl) .opt (.nil _)))⟩
  refine .label _ [98] [[97]] 2 (by simp) (by simp) (by decide) (by unfold At; decide +kernel) (by decide) ?_
  refine .pointer _ 12 [[97]] 3 (by decide) (by decide) (by decide) (by decide) ?_
  refine .label _ [97] [] 1 (by simp) (by simp) (by decide) (by unfold At; decide +kernel) (by decide) ?_
  exact .root _ (by decide) (by decide)

theorem decNum_fun {s : List Byte} {n m : Nat} (h : DecNum s n) (h' : DecNum s m) : n = m := by
  obtain ⟨ds, h1, h2, -⟩ := decNum_digits h
  obtain ⟨es, h3, h4, -⟩ := decNum_digits h'
  have : ds = es := List.map_inj_right (fun _ _ => Option.some.inj) |>.1 (h1.symm.trans h3)
  rw [← h2, ← h4, this]

/-- C95: different types have different names. -/
theorem labels_differ {t t' : Nat} {l : List Byte} (h : Kind.Label t l) (h' : Kind.Label t' l) : t = t' := by
  have k1 : ∀ e ∈ kinds, ∀ e' ∈ kinds, str e.2 = str e'.2 → e.1 = e'.1 := by decide +kernel
  have k2 : ∀ e ∈ kinds, (str e.2).take 9 ≠ str "UNKNOWN (" := by decide +kernel
  have k3 : ∀ x : List Byte, (str "UNKNOWN (" ++ x).take 9 = str "UNKNOWN (" := fun x => List.take_left' rfl
  generalize hl : l = l' at h'
  cases h with
  | known h1 =>
    cases h' with
    | known h2 => exact k1 _ h1 _ h2 hl
    | unknown h2 hn => exact absurd (by rw [hl]; exact k3 _) (k2 _ h1)
  | unknown h1 hn =>
    cases h' with
    | known h2 => exact absurd (by rw [← hl]; exact k3 _) (k2 _ h2)
    | unknown h2 hn' =>
      have := List.append_cancel_right (List.append_cancel_left hl)
      subst this
      exact decNum_fun hn.1 hn'.1

/-! ### C96 -/

/-- C96, the full claim: a message has no more lines in the log than it has fields, one apart. -/
def NoForgedLines : Prop :=
  ∀ (m : Msg) (fss : List (List Field)) (fuel : Nat) (out : List Byte), m.Valid → m.qs ≠ [] → m.bytes.length < 65536 → SaysOf Internet m fss →
    getAll 1024 1024 m.bytes m.bytes.length fuel = .ok out → out.count 10 ≤ fss.flatten.length + 1

/-- C96 is false of the code: a newline in a TXT record (or in a name) is put into the log as it is. -/
theorem no_forged_lines_false : ¬ NoForgedLines := by
  intro h
  have := h (oneRecord 16 1 [2, 10, 10]) [[(str "TXT", [10, 10])]] 0 (str "   TXT: \n\n\n") (oneRecord_valid (by omega) (by omega) (by omega) (by omega) (by simp))
    (by simp [oneRecord]) (by decide) (.cons (.inl rfl) (.txt (ss := [[10, 10]]) (by simp)) (.nil _)) (by
      have : textOf (getAll 1024 1024 (oneRecord 16 1 [2, 10, 10]).bytes (oneRecord 16 1 [2, 10, 10]).bytes.length 0) = some (str "   TXT: \n\n\n") := by decide +kernel
      cases hg : getAll 1024 1024 (oneRecord 16 1 [2, 10, 10]).bytes (oneRecord 16 1 [2, 10, 10]).bytes.length 0 with
      | error e => rw [hg] at this; simp [textOf] at this
      | ok t => rw [hg] at this; simp [textOf] at this; rw [this])
  exact absurd this (by decide)

theorem decNum_no_newline {s : List Byte} {n : Nat} (h : DecNum s n) : (10 : Byte) ∉ s := by
  have key : ∀ (c : Byte) (d : Nat), DecDigit c d → (10 : Byte) ≠ c := by
    rintro c d ⟨h1, h2⟩ rfl
    simp at h2; omega
  induction h with
  | one h => simpa using key _ _ h
  | more _ h ih => simp only [List.mem_append, List.mem_singleton, not_or]; exact ⟨ih, key _ _ h⟩

theorem label_no_newline {t : Nat} {l : List Byte} (h : Kind.Label t l) : (10 : Byte) ∉ l := by
  cases h with
  | known h =>
    have : ∀ e ∈ kinds, (10 : Byte) ∉ str e.2 := by decide +kernel
    exact this _ h
  | unknown h hn =>
    simp only [List.mem_append, not_or]
    exact ⟨by decide, decNum_no_newline hn.1, by decide⟩

theorem fields_no_newline {b : List Byte} {row t : Nat} {d : List Byte} {fs : List Field} (h : Fields b row t d fs) : ∀ f ∈ fs, (10 : Byte) ∉ f.1 := by
  cases h with
  | a => simp [str]
  | aaaa => simp [str]
  | name _ hl => simpa using label_no_newline hl
  | txt => simp [str]
  | mx => simp [str]
  | soa => simp [str]
  | opt => simp [str]
  | other _ hl => simpa using label_no_newline hl

theorem lines_no_newline {C : RR → Prop} {b : List Byte} {p : Nat} {rs : List RR} {fss : List (List Field)} (h : Lines C b p rs fss) :
    ∀ f ∈ fss.flatten, (10 : Byte) ∉ f.1 := by
  induction h with
  | nil => simp
  | cons hc h hs ih =>
    intro f hf
    simp only [List.flatten_cons, List.mem_append] at hf
    rcases hf with hf | hf
    · exact fields_no_newline h f hf
    · exact ih f hf

theorem shown_count {fss : List (List Field)} (h : ∀ f ∈ fss.flatten, (10 : Byte) ∉ f.1 ∧ (10 : Byte) ∉ f.2) : (shown fss).count 10 = fss.flatten.length := by
  unfold shown
  generalize fss.flatten = l at h
  induction l with
  | nil => rfl
  | cons f l ih =>
    obtain ⟨h1, h2⟩ := h f (by simp)
    simp only [List.map_cons, List.flatten_cons, List.count_append, ih (fun x hx => h x (by simp [hx])), List.length_cons]
    have : f.line.count 10 = 1 := by
      simp only [Field.line, List.count_append, List.count_eq_zero_of_not_mem h1, List.count_eq_zero_of_not_mem h2]
      decide
    omega

/-- C96, partial: a message whose names and texts have no newline has one line in the log for each field that is shown, and one
more if not all records are. -/
theorem no_forged_lines_partial (m : Msg) (fss : List (List Field)) (hm : m.Valid) (hq : m.qs ≠ []) (hlen : m.bytes.length < 65536)
    (hL : SaysOf Internet m fss) (hn : ∀ fss, SaysOf Internet m fss → ∀ f ∈ fss.flatten, (10 : Byte) ∉ f.2) :
    ∃ fss', SaysOf Internet m fss' ∧ ∀ post, ∃ f0, ∀ fuel, f0 ≤ fuel → ∃ out k, getAll 1024 1024 (m.bytes ++ post) m.bytes.length fuel = .ok out ∧
      k ≤ fss'.length ∧ out.count 10 = (fss'.take k).flatten.length + (if k < fss'.length ∨ fss' = [] then 1 else 0) := by
  obtain ⟨fss', h1, h2⟩ := shows_records_partial 1024 1024 m fss (by omega) (by omega) hm hq hlen hL
  refine ⟨fss', h1, fun post => ?_⟩
  obtain ⟨f0, h2⟩ := h2 post
  refine ⟨f0, fun fuel hf => ?_⟩
  obtain ⟨out, h3, k, h4, -, h6⟩ := h2 fuel hf
  refine ⟨out, k, h3, h4, ?_⟩
  have hsub : ∀ f ∈ (fss'.take k).flatten, (10 : Byte) ∉ f.1 ∧ (10 : Byte) ∉ f.2 := by
    intro f hf
    have : f ∈ fss'.flatten := by
      obtain ⟨l, hl, hfl⟩ := List.mem_flatten.1 hf
      exact List.mem_flatten.2 ⟨l, List.mem_of_mem_take hl, hfl⟩
    exact ⟨lines_no_newline h1 f this, hn _ h1 f this⟩
  have hc := shown_count hsub
  by_cases hk : k < fss'.length
  · rw [if_pos hk] at h6
    obtain ⟨⟨n, hnn, rfl⟩, -⟩ := h6
    rw [if_pos (.inl hk)]
    simp only [List.count_append, hc, List.count_eq_zero_of_not_mem (decNum_no_newline hnn.1)]
    rfl
  · rw [if_neg hk] at h6
    have ht : fss'.take k = fss' := List.take_of_length_le (by omega)
    rw [ht] at hc ⊢
    by_cases h0 : fss' = []
    · rw [if_pos h0] at h6
      subst h6
      rw [if_pos (.inr h0), h0]
      rfl
    · rw [if_neg h0] at h6
      subst h6
      rw [if_neg (by rintro (h | h); exact hk h; exact h0 h), hc]
      rfl

/-- Non-vacuity: the text of the sample has three lines. -/
example : (textOf (getAll 1024 1024 sample.bytes sample.bytes.length 9)).map (·.count 10) = some 3 := by decide +kernel

end Verif.Show
