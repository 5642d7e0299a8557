import Verif.Lemmas.Show
import Verif.Lemmas.DnsCache
import Verif.Lemmas.IpMisc
import Verif.Props.IpText
/-! The text of a well-formed message says what its records say. -/

namespace Verif.Show
open Parser Name Message Generator ReplaceStr IpText
open DnsCache.Spec (bytesAt)

theorem dec_head (n : Nat) (h : n ≠ 0) : (dec n).head? ≠ some 48 ∧ dec n ≠ [] := by
  induction n using Nat.strongRecOn with
  | _ n ih =>
    rw [dec]
    split
    · rename_i h10
      have key : ∀ d : Fin 10, d.val ≠ 0 → UInt8.ofNat (48 + d.val) ≠ 48 := by decide
      exact ⟨by simpa using key ⟨n, h10⟩ h, by simp⟩
    · obtain ⟨h1, h2⟩ := ih (n / 10) (by omega) (by omega)
      refine ⟨?_, by simp⟩
      cases hx : dec (n / 10) with
      | nil => exact absurd hx h2
      | cons c r => rw [hx] at h1; simpa using h1

theorem dec_decimal (n : Nat) : Decimal n (dec n) := by
  refine ⟨dec_num n, ?_⟩
  intro h
  by_cases hn : n = 0
  · subst hn; rw [dec]; rfl
  · exact absurd h (dec_head n hn).1

theorem typeList_eq : typeList = kinds.map fun e => (e.1, str e.2) := by decide +kernel

theorem rawLabel_ok (t : Nat) : Kind.Label t (rawLabel t) := by
  unfold rawLabel typeName
  rw [typeList_eq]
  cases h : (kinds.map fun e => (e.1, str e.2)).find? (·.1 == t) with
  | some e =>
    have h1 := List.mem_of_find?_eq_some h
    have h2 := List.find?_some h
    obtain ⟨e', he, rfl⟩ := List.mem_map.1 h1
    simp at h2
    subst h2
    exact .known he
  | none =>
    refine .unknown ?_ (dec_decimal t)
    intro s hs
    have := List.find?_eq_none.1 h (t, str s) (List.mem_map.2 ⟨(t, s), hs, rfl⟩)
    simp at this

theorem label_length {t : Nat} {l : List Byte} (h : Kind.Label t l) : 1 ≤ l.length := by
  cases h with
  | known h =>
    have : ∀ e ∈ kinds, 1 ≤ (str e.2).length := by decide +kernel
    exact this _ h
  | unknown h hn => simp [str]

/-- The lines of one record. -/
def linesOf (fs : List Field) : List Byte := (fs.map Field.line).flatten

/-- What a function that shows a record does: all of it if it fits, else nothing. -/
def Fit (left : Int) (r : Res) (fs : List Field) : Prop :=
  (r = .ok (some (linesOf fs)) ∧ ((linesOf fs).length : Int) + 1 ≤ left) ∨ (r = .ok none ∧ left < ((linesOf fs).length : Int) + 3)

theorem linesOf_one (f : Field) : linesOf [f] = f.line := by simp [linesOf]

theorem fill_fit {pre v : List Byte} (hp : (37 : Byte) ∉ pre) {cap : Nat} {left : Int} (hl : left ≤ cap) (h11 : 11 ≤ cap) :
    Fit left (fill cap left pre (.ok (some v))) [(pre, v)] := by
  rw [fill_eq hp hl h11]
  unfold Fit
  rw [linesOf_one, line_length]
  simp only
  split
  · split
    · left; exact ⟨rfl, by omega⟩
    · right; exact ⟨rfl, by omega⟩
  · right; exact ⟨rfl, by omega⟩

theorem fillChecked_fit {pre v : List Byte} (hp : (37 : Byte) ∉ pre) (h2 : 2 ≤ pre.length) {cap : Nat} {left : Int} (hl : left ≤ cap) {value : Res}
    (hv : value = .ok (some v)) : Fit left (fillChecked cap left pre value) [(pre, v)] := by
  subst hv
  unfold fillChecked
  split
  · rename_i h
    rw [show format.length = 10 by decide] at h
    right
    refine ⟨rfl, ?_⟩
    rw [linesOf_one, line_length]
    simp only
    omega
  · rename_i h
    rw [show format.length = 10 by decide] at h
    exact fill_fit hp hl (by omega)

/-- The values of several fields one after the other. -/
inductive Vals (b : List Byte) (len fuel : Nat) : Nat → Nat → List (List Byte × Kind) → List Field → Prop where
  | nil (p data : Nat) : Vals b len fuel p data [] []
  | cons {p data : Nat} {pre v : List Byte} {k : Kind} {sz : Nat} {fs : List (List Byte × Kind)} {vs : List Field} (hd : 0 < data) (hsz : sz ≤ data)
      (hp : (37 : Byte) ∉ pre) (h2 : 2 ≤ pre.length) (hv : fieldValue b len fuel p k = .ok (some v)) (hs : fieldSize b len fuel p k = sz)
      (h : Vals b len fuel (p + sz) (data - sz) fs vs) : Vals b len fuel p data ((pre, k) :: fs) ((pre, v) :: vs)

theorem linesOf_cons (f : Field) (fs : List Field) : linesOf (f :: fs) = f.line ++ linesOf fs := by simp [linesOf]

theorem fieldsLoop_fit {b : List Byte} {len fuel : Nat} {fs : List (List Byte × Kind)} {vs : List Field} {p data : Nat}
    (h : Vals b len fuel p data fs vs) : ∀ (cap : Nat) (left : Int) (acc : List Byte), left ≤ cap → 1 ≤ left →
      (fieldsLoop b len fuel cap left p data acc fs = .ok (some (acc ++ linesOf vs)) ∧ ((linesOf vs).length : Int) + 1 ≤ left) ∨
      (fieldsLoop b len fuel cap left p data acc fs = .ok none ∧ left < ((linesOf vs).length : Int) + 3) := by
  induction h with
  | nil p data =>
    intro cap left acc _ h1
    left
    exact ⟨by simp [fieldsLoop, linesOf], by simp [linesOf]; omega⟩
  | @cons p data pre v k sz fs vs hd hsz hp h2 hv hs h ih =>
    intro cap left acc hl h1
    unfold fieldsLoop
    rw [if_pos (by omega), hs, linesOf_cons]
    rcases fillChecked_fit (v := v) hp h2 hl hv with ⟨h3, h4⟩ | ⟨h3, h4⟩
    · rw [linesOf_one] at h3 h4
      simp only [h3]
      have hl' := line_length (pre, v)
      rw [if_neg (by intro h; rw [h] at hl'; simp at hl')]
      have := ih (cap - (Field.line (pre, v)).length) (left - (Field.line (pre, v)).length) (acc ++ Field.line (pre, v)) (by omega) (by omega)
      rw [show ((data - sz : Nat) : Int) = (data : Int) - sz by omega] at this
      rcases this with ⟨h5, h6⟩ | ⟨h5, h6⟩
      · left
        rw [h5]
        exact ⟨by simp, by simp only [List.length_append]; omega⟩
      · right
        exact ⟨h5, by simp only [List.length_append]; omega⟩
    · rw [linesOf_one] at h4
      simp only [h3]
      right
      exact ⟨trivial, by simp only [List.length_append]; omega⟩

/-! ### The values -/

theorem text_no_zero {ls : List (List Byte)} (h : ∀ l ∈ ls, (0 : Byte) ∉ l) : (0 : Byte) ∉ text ls := by
  induction ls with
  | nil => simp [text]
  | cons l ls ih =>
    cases ls with
    | nil => simpa [text] using h
    | cons l' ls =>
      rw [text]
      simp only [List.mem_append, List.mem_cons, not_or]
      exact ⟨h l (by simp), by decide, ih (fun x hx => h x (by simp [hx]))⟩

theorem cstr_id {s : List Byte} (h : (0 : Byte) ∉ s) : cstr s = s := by
  unfold cstr
  have := List.takeWhile_append_of_pos (p := fun x : Byte => decide (x ≠ 0)) (l₁ := s) (l₂ := [])
    (by intro x hx; simp only [decide_eq_true_eq, ne_eq]; rintro rfl; exact h hx)
  simpa using this

theorem cstr_zero {s : List Byte} (h : (0 : Byte) ∉ s) : cstr (s ++ [0]) = s := by
  have : cstr (s ++ [0]) = s ++ cstr [0] := by
    unfold cstr
    rw [List.takeWhile_append_of_pos]
    intro x hx
    simp only [decide_eq_true_eq, ne_eq]
    rintro rfl
    exact h hx
  rw [this]; simp [cstr]

theorem nameAt_ok {b post : List Byte} {p k : Nat} {ls : List (List Byte)} (hp : Plain ls) (h : Denotes (bytesAt b) b.length p ls k) :
    ∃ f0, ∀ fuel, f0 ≤ fuel → nameAt (b ++ post) b.length fuel p = .ok (some (text ls, k)) := by
  have hd : Denotes (Msg.memAt (b ++ post)) b.length p ls k :=
    DnsCache.denotes_congr h (Nat.le_refl _) (fun i hi => DnsCache.bytesAt_append hi)
  obtain ⟨f0, h0⟩ := compressed_name_decoded _ _ p k 254 ls hd (by have := hp.2; omega)
  refine ⟨f0, fun fuel hf => ?_⟩
  unfold nameAt
  rw [(h0 fuel hf).1]
  simp only [cstr_zero (text_no_zero hp.1)]

theorem valueName_ok {b : List Byte} {len fuel p k : Nat} {t : List Byte} (h : nameAt b len fuel p = .ok (some (t, k))) :
    valueName b len fuel p = .ok (some t) ∧ fieldSize b len fuel p .name = k := by
  unfold valueName fieldSize
  rw [h]
  exact ⟨rfl, rfl⟩

theorem rrString_ok {b : List Byte} {row dl cap : Nat} (ss : List (List Byte)) : ∀ (pre rest acc : List Byte) (off : Nat),
    (∀ s ∈ ss, s.length < 256 ∧ (0 : Byte) ∉ s) → (0 : Byte) ∉ acc → b = pre ++ ((ss.map fun s => UInt8.ofNat s.length :: s).flatten ++ rest) →
    pre.length = row + off → off + ((ss.map fun s => UInt8.ofNat s.length :: s).flatten).length = dl → acc.length ≤ off →
    dl ≤ cap → acc.length < cap → (acc ≠ [] → acc.length < dl) →
    rrString b row dl cap off acc = .ok (some (acc ++ ss.flatten)) := by
  induction ss with
  | nil =>
    intro pre rest acc off _ h0 hb hr hdl _ hc hac _
    unfold rrString
    simp at hdl
    rw [if_neg (by omega), if_neg (by omega), cstr_id h0]
    simp
  | cons s ss ih =>
    intro pre rest acc off hs h0 hb hr hdl hao hc hac hacc
    simp only [List.map_cons, List.flatten_cons, List.length_append, List.length_cons] at hdl hb
    obtain ⟨hl, hz⟩ := hs s (by simp)
    unfold rrString
    rw [if_pos (by omega)]
    have hb1 : b[row + off]? = some (UInt8.ofNat s.length) := by
      rw [hb, ← hr, List.getElem?_append_right (Nat.le_refl _)]; simp
    have htn : (UInt8.ofNat s.length).toNat = s.length := by simp; omega
    rw [hb1]
    simp only [htn]
    have hblen : b.length = pre.length + (1 + s.length + ((ss.map fun s => UInt8.ofNat s.length :: s).flatten).length + rest.length) := by
      rw [hb]; simp only [List.length_append, List.length_cons]; omega
    rw [if_neg (by omega), if_neg (by omega), if_neg (by omega)]
    have hdt : (b.drop (row + off + 1)).take s.length = s := by
      have : b = (pre ++ [UInt8.ofNat s.length]) ++ (s ++ ((ss.map fun s => UInt8.ofNat s.length :: s).flatten ++ rest)) := by rw [hb]; simp
      rw [this, ← hr, List.drop_left' (by simp)]
      simp
    rw [hdt]
    rw [ih (pre ++ (UInt8.ofNat s.length :: s)) rest (acc ++ s) (off + 1 + s.length) (fun x hx => hs x (by simp [hx]))
      (by simp only [List.mem_append, not_or]; exact ⟨h0, hz⟩) (by rw [hb]; simp) (by simp; omega) (by omega)
      (by simp; omega) hc (by simp; omega) (by intro _; simp; omega)]
    simp

theorem take_drop_mid {pre d rest : List Byte} : ((pre ++ (d ++ rest)).drop pre.length).take d.length = d := by simp

/-- One record. -/
theorem textify_fields {b pre d rest : List Byte} {row t klass : Nat} {fs : List Field} (hb : b = pre ++ (d ++ rest)) (hrow : row = pre.length)
    (hc : klass = 1 ∨ t = 41) (h : Fields b row t d fs) :
    ∃ fs', Fields b row t d fs' ∧ fs' ≠ [] ∧ ∀ post, ∃ f0, ∀ fuel, f0 ≤ fuel → ∀ (cap : Nat) (left : Int), left ≤ cap → 11 ≤ cap → 1 ≤ left →
      Fit left (textify (b ++ post) b.length fuel cap left t klass row d.length) fs' := by
  have hmem : ∀ post, b ++ post = pre ++ (d ++ (rest ++ post)) := fun post => by rw [hb]; simp
  have hcls : ¬ (t ≠ 41 ∧ klass ≠ 1) := by omega
  cases h with
  | @a w x y z s1 s2 s3 s4 h1 h2 h3 h4 =>
    refine ⟨_, .a (dec_decimal w.toNat) (dec_decimal x.toNat) (dec_decimal y.toNat) (dec_decimal z.toNat), by simp, fun post => ⟨0, ?_⟩⟩
    intro fuel _ cap left hl h11 h1
    unfold textify
    rw [if_neg hcls, if_pos rfl]
    refine fillChecked_fit (by decide) (by decide) hl ?_
    unfold value4
    have : ((b ++ post).drop row).take 4 = [w, x, y, z] := by rw [hmem, hrow]; simp
    rw [this]
    rfl
  | @aaaa _ tt vs hv ht =>
    obtain ⟨vs', hv', hc'⟩ := v6_print_canonical d hv.1
    refine ⟨_, .aaaa hv' hc', by simp, fun post => ⟨0, ?_⟩⟩
    intro fuel _ cap left hl h11 h1
    unfold textify
    rw [if_neg hcls, if_neg (by omega), if_pos rfl]
    refine fillChecked_fit (by decide) (by decide) hl ?_
    unfold value6
    have hd := hv.1
    have e : ((b ++ post).drop row).take 16 = d := by rw [hmem, hrow, ← hd]; exact take_drop_mid
    rw [if_neg (by rw [hmem, hrow]; simp only [List.length_append]; omega), e]
  | @name _ _ l ls ht hl hp hd =>
    refine ⟨_, .name ht (rawLabel_ok t) hp hd, by simp, fun post => ?_⟩
    obtain ⟨f0, hf0⟩ := nameAt_ok (post := post) hp hd
    refine ⟨f0, ?_⟩
    intro fuel hf cap left hle h11 h1
    unfold textify
    rw [if_neg hcls, if_neg (by omega), if_neg (by omega), if_pos (by omega)]
    refine fillChecked_fit (rawLabel_no_percent _) ?_ hle (valueName_ok (hf0 fuel hf)).1
    rcases ht with rfl | rfl | rfl <;> decide
  | @txt ss hss =>
    refine ⟨_, .txt hss, by simp, fun post => ⟨0, ?_⟩⟩
    intro fuel _ cap left hl h11 h1
    unfold textify
    rw [if_neg hcls, if_neg (by omega), if_neg (by omega), if_neg (by omega), if_pos rfl]
    refine fillChecked_fit (by decide) (by decide) hl ?_
    unfold valueTxt
    have := rrString_ok (b := b ++ post) (row := row) (dl := ((ss.map fun s => UInt8.ofNat s.length :: s).flatten).length)
      (cap := if ((ss.map fun s => UInt8.ofNat s.length :: s).flatten).length > 256 then ((ss.map fun s => UInt8.ofNat s.length :: s).flatten).length else 256)
      ss pre (rest ++ post) [] 0 hss (by simp) (hmem post) (by omega) (by omega) (by simp) (by split <;> omega) (by simp; split <;> omega) (by simp)
    rw [this]; rfl
  | @mx _ n pref ls k hn h16 hp h2 hd hk =>
    refine ⟨_, .mx (dec_decimal pref) h16 hp h2 hd hk, by simp, fun post => ?_⟩
    obtain ⟨f0, hf0⟩ := nameAt_ok (post := post) hp hd
    refine ⟨f0, ?_⟩
    intro fuel hf cap left hl h11 h1
    unfold textify
    rw [if_neg hcls, if_neg (by omega), if_neg (by omega), if_neg (by omega), if_neg (by omega), if_pos rfl]
    obtain ⟨hv, hsz⟩ := valueName_ok (hf0 fuel hf)
    have hu : u16At (b ++ post) row = some pref := by
      refine u16At_eq (pre := pre) (post := d.drop 2 ++ (rest ++ post)) ?_ hrow h16
      rw [hmem, ← h2, ← List.append_assoc (d.take 2), List.take_append_drop]
    have hk1 : 1 ≤ k := by cases hd <;> omega
    have hvals : Vals (b ++ post) b.length fuel row d.length mxFields [(str "preference", dec pref), (str "mail exchanger", text ls)] := by
      refine .cons (sz := 2) (by omega) (by omega) (by decide) (by decide) ?_ rfl ?_
      · show value16 _ _ = _
        unfold value16; rw [hu]
      · exact .cons (sz := k) (by omega) (by omega) (by decide) (by decide) hv hsz (.nil _ _)
    simpa [Fit] using fieldsLoop_fit hvals cap left [] hl h1
  | @soa _ n1 n2 n3 n4 n5 i1 i2 i3 i4 i5 ls ms j k hp hp' hd hd' hi h1 h2 h3 h4 h5 =>
    refine ⟨_, .soa hp hp' hd hd' hi ⟨h1.1, dec_decimal i1⟩ ⟨h2.1, dec_decimal i2⟩ ⟨h3.1, dec_decimal i3⟩ ⟨h4.1, dec_decimal i4⟩ ⟨h5.1, dec_decimal i5⟩,
      by simp, fun post => ?_⟩
    obtain ⟨f0, hf0⟩ := nameAt_ok (post := post) hp hd
    obtain ⟨f1, hf1⟩ := nameAt_ok (post := post) hp' hd'
    refine ⟨max f0 f1, ?_⟩
    intro fuel hf cap left hl h11 hle
    unfold textify
    rw [if_neg hcls, if_neg (by omega), if_neg (by omega), if_neg (by omega), if_neg (by omega), if_neg (by omega), if_pos rfl]
    obtain ⟨hv, hsz⟩ := valueName_ok (hf0 fuel (by omega))
    obtain ⟨hv', hsz'⟩ := valueName_ok (hf1 fuel (by omega))
    have hdl : d.length = j + k + 20 := by
      have := congrArg List.length hi
      simp [u32_length] at this
      omega
    have hj1 : 1 ≤ j := by cases hd <;> omega
    have hk1 : 1 ≤ k := by cases hd' <;> omega
    have hmem' : b ++ post = (pre ++ d.take (j + k)) ++ (u32 i1 ++ (u32 i2 ++ (u32 i3 ++ (u32 i4 ++ (u32 i5 ++ (rest ++ post)))))) := by
      have : d = d.take (j + k) ++ (u32 i1 ++ (u32 i2 ++ (u32 i3 ++ (u32 i4 ++ u32 i5)))) := by rw [← hi, List.take_append_drop]
      rw [hmem]
      conv => lhs; rw [this]
      simp
    have hpl : (pre ++ d.take (j + k)).length = row + j + k := by simp; omega
    generalize pre ++ d.take (j + k) = q at hmem' hpl
    have hu : ∀ (i : Nat) (q' : List Byte) (p : Nat) (r' : List Byte), i < 4294967296 → b ++ post = q' ++ (u32 i ++ r') → q'.length = p →
        value32 (b ++ post) p = .ok (some (dec i)) := by
      intro i q' p r' hi hb' hq'
      unfold value32
      rw [u32At_eq hb' hq'.symm hi]
    have hvals : Vals (b ++ post) b.length fuel row d.length soaFields [(str "(SOA)primary name server", text ls), (str "(SOA)responsible mail addr", text ms),
        (str "(SOA)serial", dec i1), (str "(SOA)refresh", dec i2), (str "(SOA)retry", dec i3), (str "(SOA)expire", dec i4), (str "(SOA)default TTL", dec i5)] := by
      refine .cons (sz := j) (by omega) (by omega) (by decide) (by decide) hv hsz ?_
      refine .cons (sz := k) (by omega) (by omega) (by decide) (by decide) hv' hsz' ?_
      refine .cons (sz := 4) (by omega) (by omega) (by decide) (by decide) (hu i1 q _ _ h1.1 hmem' (by omega)) rfl ?_
      refine .cons (sz := 4) (by omega) (by omega) (by decide) (by decide)
        (hu i2 (q ++ u32 i1) _ (u32 i3 ++ (u32 i4 ++ (u32 i5 ++ (rest ++ post)))) h2.1 (by rw [hmem']; simp) (by simp [u32_length]; omega)) rfl ?_
      refine .cons (sz := 4) (by omega) (by omega) (by decide) (by decide)
        (hu i3 (q ++ (u32 i1 ++ u32 i2)) _ (u32 i4 ++ (u32 i5 ++ (rest ++ post))) h3.1 (by rw [hmem']; simp) (by simp [u32_length]; omega)) rfl ?_
      refine .cons (sz := 4) (by omega) (by omega) (by decide) (by decide)
        (hu i4 (q ++ (u32 i1 ++ (u32 i2 ++ u32 i3))) _ (u32 i5 ++ (rest ++ post)) h4.1 (by rw [hmem']; simp) (by simp [u32_length]; omega)) rfl ?_
      refine .cons (sz := 4) (by omega) (by omega) (by decide) (by decide)
        (hu i5 (q ++ (u32 i1 ++ (u32 i2 ++ (u32 i3 ++ u32 i4)))) _ (rest ++ post) h5.1 (by rw [hmem']; simp) (by simp [u32_length]; omega)) rfl ?_
      exact .nil _ _
    simpa [Fit] using fieldsLoop_fit hvals cap left [] hl hle
  | @opt _ =>
    refine ⟨_, .opt, by simp, fun post => ⟨0, ?_⟩⟩
    intro fuel _ cap left hl h11 h1
    unfold textify
    rw [if_neg hcls, if_neg (by omega), if_neg (by omega), if_neg (by omega), if_neg (by omega), if_neg (by omega), if_neg (by omega)]
    exact fill_fit (rawLabel_no_percent _) hl h11
  | @other _ _ l n ht hll hn =>
    refine ⟨_, .other ht (rawLabel_ok t) (dec_decimal d.length), by simp, fun post => ⟨0, ?_⟩⟩
    intro fuel _ cap left hl h11 h1
    simp only [shownTypes, List.mem_cons, not_or] at ht
    unfold textify
    rw [if_neg hcls, if_neg (by omega), if_neg (by omega), if_neg (by omega), if_neg (by omega), if_neg (by omega), if_neg (by omega)]
    have e : rawValue t d.length = dec d.length ++ str " bytes" := by unfold rawValue; rw [if_pos (by omega)]
    rw [e]
    exact fill_fit (rawLabel_no_percent _) hl h11

/-! ### The records one after the other -/

theorem shown_cons (fs : List Field) (fss : List (List Field)) : shown (fs :: fss) = linesOf fs ++ shown fss := by
  simp [shown, linesOf]

theorem Lines.length {C : RR → Prop} {b : List Byte} {p : Nat} {rs : List RR} {fss : List (List Field)} (h : Lines C b p rs fss) : fss.length = rs.length := by
  induction h with
  | nil => rfl
  | cons _ _ _ ih => simp [ih]

theorem linesOf_ne {fs : List Field} (h : fs ≠ []) : ∃ x t, linesOf fs = x :: t := by
  cases fs with
  | nil => exact absurd rfl h
  | cons f fs =>
    rw [linesOf_cons]
    refine ⟨32, (Field.line f ++ linesOf fs).drop 1, ?_⟩
    simp [Field.line, str]

theorem showLoop_records {b : List Byte} {c : Counts} (rs : List (Purpose × RR)) : ∀ {pre : List Byte} {n : Nat} {rest : List Byte}
    {fss : List (List Field)}, (∀ x ∈ rs, x.2.Valid ∧ x.1 ≠ .unknown ∧ x.1 ≠ .question) →
    b = pre ++ (rrBytes (rs.map (·.2)) ++ rest) → (∀ i, (h : i < rs.length) → determinePurpose c (n + i) = rs[i].1) → n + rs.length = c.all + 1 →
    Lines Internet b pre.length (rs.map (·.2)) fss →
    ∃ fss', Lines Internet b pre.length (rs.map (·.2)) fss' ∧ ∀ post, ∃ f0, ∀ fuel, f0 ≤ fuel → ∀ (cap rounds : Nat) (it : Itr) (acc : List Byte) (left : Int),
      next (b ++ post) b.length c it = (if rs = [] then some ({ it with pos := none, num := 0 }, none) else look (b ++ post) b.length c it pre.length n) →
      rs.length < rounds → (rs.length : Int) < 100000 → (acc.length : Int) + left + 22 ≤ cap → 1 ≤ left →
      ∃ k, k ≤ rs.length ∧ ((shown (fss'.take k)).length : Int) + 1 ≤ left ∧
        (if k < rs.length then
          showLoop (b ++ post) b.length fuel cap c rounds it acc left rs.length = .ok (acc ++ (shown (fss'.take k) ++ more ((rs.length : Int) - k))) ∧
          left < ((shown (fss'.take (k + 1))).length : Int) + 3
        else showLoop (b ++ post) b.length fuel cap c rounds it acc left rs.length = .ok (acc ++ shown fss')) := by
  induction rs with
  | nil =>
    intro pre n rest fss _ _ _ _ _
    refine ⟨[], .nil _, fun post => ⟨0, ?_⟩⟩
    intro fuel _ cap rounds it acc left hn hr _ _ h1
    refine ⟨0, by simp, by simp [shown]; omega, ?_⟩
    obtain ⟨f, rfl⟩ : ∃ g, rounds = g + 1 := ⟨rounds - 1, by simp at hr; omega⟩
    simp [showLoop, hn, shown]
  | cons x rs ih =>
    obtain ⟨pu, r⟩ := x
    intro pre n rest fss hok hb hpu hn hL
    simp only [List.map_cons] at hb hL
    rw [IpMisc.rrBytes_cons] at hb
    obtain ⟨hrv, hpu1, hpu2⟩ := hok (pu, r) (by simp)
    simp only at hrv hpu1 hpu2
    simp only [List.length_cons] at hn
    cases hL with
    | @cons _ _ _ fs fss hc hF hLs =>
    have hb2 : b = (pre ++ r.bytes) ++ (rrBytes (rs.map (·.2)) ++ rest) := by rw [hb]; simp
    obtain ⟨fss', hL', hf1⟩ := @ih (pre ++ r.bytes) (n + 1) rest fss (fun y hy => hok y (by simp [hy])) hb2
      (fun i hi => by
        have h1 := hpu (i + 1) (by simp; omega)
        rw [show n + 1 + i = n + (i + 1) by omega]; simpa using h1)
      (by omega) (by simpa using hLs)
    have hb3 : b = (pre ++ (r.name ++ (u16 r.type ++ (u16 r.klass ++ (u32 r.ttl ++ u16 r.rdata.length))))) ++ (r.rdata ++ (rrBytes (rs.map (·.2)) ++ rest)) := by
      rw [hb]; simp [RR.bytes]
    obtain ⟨fs', hF', hne, hf2⟩ := textify_fields (klass := r.klass) hb3 (by simp [u16_length, u32_length]; omega) hc hF
    refine ⟨fs' :: fss', ?_, fun post => ?_⟩
    · simp only [List.map_cons]
      exact .cons hc hF' (by simpa using hL')
    obtain ⟨f1, hf1⟩ := hf1 post
    obtain ⟨f2, hf2⟩ := hf2 post
    refine ⟨max f1 f2, ?_⟩
    intro fuel hf cap rounds it acc left hnext hr htot hcap h1
    obtain ⟨f, rfl⟩ : ∃ g, rounds = g + 1 := ⟨rounds - 1, by omega⟩
    have hbm : b ++ post = pre ++ ((rItem pu r).bytes ++ (rrBytes (rs.map (·.2)) ++ (rest ++ post))) := by rw [hb, rItem_bytes]; simp
    have hx := rItem_ok hrv hpu1 hpu2
    have h0 : determinePurpose c n = (rItem pu r).pu := hpu 0 (by simp)
    have hlook := look_item (len := b.length) (it := it) hx hbm (by rw [hb]; simp) (show n ≤ c.all by omega) h0
    rw [if_neg (by simp), hlook] at hnext
    have hrow : rowData (b ++ post) pre.length = some (pre.length + r.name.length + 10) := by
      unfold rowData
      have hsk : skipAt (b ++ post) pre.length = some r.name.length :=
        skipAt_eq (nb := r.name) (post := u16 r.type ++ (u16 r.klass ++ (u32 r.ttl ++ (u16 r.rdata.length ++ (r.rdata ++ (rrBytes (rs.map (·.2)) ++ (rest ++ post)))))))
          (by rw [hb]; simp [RR.bytes]) rfl hrv.1
      rw [hsk]; rfl
    have hfit := hf2 fuel (by omega) (cap - acc.length) left (by omega) (by omega) h1
    have e1 : ((rItem pu r).itr it.dataLen pre.length n).purpose = pu := rfl
    have e2 : ((rItem pu r).itr it.dataLen pre.length n).type = r.type := rfl
    have e3 : ((rItem pu r).itr it.dataLen pre.length n).klass = r.klass := rfl
    have e4 : ((rItem pu r).itr it.dataLen pre.length n).dataLen = r.rdata.length := by
      simp only [Item.itr]
      rw [if_neg]
      · rfl
      · exact hpu2
    have hstep : ∀ ana, showLoop (b ++ post) b.length fuel cap c (f + 1) it acc left ana =
        match textify (b ++ post) b.length fuel (cap - acc.length) left r.type r.klass (pre.length + r.name.length + 10) r.rdata.length with
        | .error e => .error e
        | .ok o =>
          match o with
          | some (x :: t) => showLoop (b ++ post) b.length fuel cap c f ((rItem pu r).itr it.dataLen pre.length n) (acc ++ x :: t) (left - (t.length + 1)) (ana - 1)
          | _ => if cap < acc.length + (more ana).length + 1 then .error .overrun else .ok (acc ++ more ana) := by
      intro ana
      conv => lhs; unfold showLoop
      rw [hnext]
      simp only [e1, e2, e3, e4, hrow]
      rw [if_neg (fun h => h.elim hpu2 hpu1)]
      generalize textify (b ++ post) b.length fuel (cap - acc.length) left r.type r.klass (pre.length + r.name.length + 10) r.rdata.length = o
      cases o with
      | error e => rfl
      | ok o =>
        cases o with
        | none => rfl
        | some l => cases l <;> rfl
    rcases hfit with ⟨h3, h4⟩ | ⟨h3, h4⟩
    · obtain ⟨y, tl, hyt⟩ := linesOf_ne hne
      have hnx : next (b ++ post) b.length c ((rItem pu r).itr it.dataLen pre.length n) =
          (if rs = [] then some ({ ((rItem pu r).itr it.dataLen pre.length n) with pos := none, num := 0 }, none)
            else look (b ++ post) b.length c ((rItem pu r).itr it.dataLen pre.length n) (pre ++ r.bytes).length (n + 1)) := by
        by_cases hxs : rs = []
        · rw [if_pos hxs]
          subst hxs
          simp at hn
          exact next_end rfl (by simp [Item.itr]; omega)
        · rw [if_neg hxs]
          have : 0 < rs.length := List.length_pos_iff.mpr hxs
          rw [next_item hx hbm (by omega), rItem_bytes]
          simp
      rw [hyt] at h3 h4
      simp only [List.length_cons] at h4 hr htot
      obtain ⟨k, hk1, hk2, hk3⟩ := hf1 fuel (by omega) cap f ((rItem pu r).itr it.dataLen pre.length n) (acc ++ y :: tl) (left - (tl.length + 1)) hnx (by omega) (by omega)
        (by simp only [List.length_append, List.length_cons]; omega) (by omega)
      refine ⟨k + 1, by simp; omega, ?_, ?_⟩
      · rw [List.take_succ_cons, shown_cons, hyt]
        simp only [List.length_append, List.length_cons]; omega
      · have hs := hstep ((rs.length + 1 : Nat) : Int)
        rw [h3] at hs
        simp only at hs
        rw [show (((rs.length + 1 : Nat) : Int)) - 1 = (rs.length : Int) by omega] at hs
        simp only [List.length_cons]
        by_cases hlt : k < rs.length
        · rw [if_pos hlt] at hk3
          rw [if_pos (by omega), hs, hk3.1]
          refine ⟨?_, ?_⟩
          · rw [List.take_succ_cons, shown_cons, hyt]
            rw [show ((rs.length + 1 : Nat) : Int) - ((k + 1 : Nat) : Int) = (rs.length : Int) - k by omega]
            simp
          · rw [List.take_succ_cons, shown_cons, hyt]
            have := hk3.2
            simp only [List.length_append, List.length_cons]; omega
        · rw [if_neg hlt] at hk3
          rw [if_neg (by omega), hs, hk3, shown_cons, hyt]
          simp
    · refine ⟨0, by simp, by simp [shown]; omega, ?_⟩
      rw [if_pos (by simp)]
      have hs := hstep ((rs.length + 1 : Nat) : Int)
      rw [h3] at hs
      simp only at hs
      simp only [List.length_cons] at htot
      have hm := more_length (n := ((rs.length + 1 : Nat) : Int)) (k := 4) (by omega) (by simpa using htot)
      rw [if_neg (by omega)] at hs
      simp only [List.length_cons]
      refine ⟨?_, ?_⟩
      · rw [hs]; simp [shown]
      · simp only [Nat.zero_add, List.take_succ_cons, List.take_zero, shown_cons]
        simp only [List.length_append]
        omega

theorem more_decimal {n : Int} (h : 0 ≤ n) : ∃ t, Decimal n.toNat t ∧ more n = str "   And " ++ (t ++ str " More ...\n") := by
  refine ⟨dec n.natAbs, ?_, ?_⟩
  · rw [show n.toNat = n.natAbs by omega]; exact dec_decimal _
  · unfold more decInt; rw [if_neg (by omega)]

theorem announced_eq {b : List Byte} {c : Counts} (h : counts b = some c) : c.an + c.ns + c.ar = announced b := by
  have key : ∀ i n, u16At b i = some n → n = (b.getD i 0).toNat * 256 + (b.getD (i + 1) 0).toNat := by
    intro i n h
    unfold u16At at h
    split at h
    · rename_i x y hx hy
      simp at h
      simp [List.getD_eq_getElem?_getD, hx, hy, h]
    · simp at h
  unfold counts at h
  split at h
  · rename_i h1 h2 h3 h4
    simp at h
    subst h
    simp only [key _ _ h2, key _ _ h3, key _ _ h4, announced]
  · simp at h

theorem announced_lt (b : List Byte) : announced b < 196606 := by
  unfold announced
  have h6 := UInt8.toNat_lt (b.getD 6 0)
  have h7 := UInt8.toNat_lt (b.getD 7 0)
  have h8 := UInt8.toNat_lt (b.getD 8 0)
  have h9 := UInt8.toNat_lt (b.getD 9 0)
  have h10 := UInt8.toNat_lt (b.getD 10 0)
  have h11 := UInt8.toNat_lt (b.getD 11 0)
  omega

theorem wireName_length {n : List Byte} (h : WireName n) : 1 ≤ n.length := by cases h <;> simp

theorem rrBytes_length {rs : List RR} (h : ∀ r ∈ rs, r.Valid) : 11 * rs.length ≤ (rrBytes rs).length := by
  induction rs with
  | nil => simp
  | cons r rs ih =>
    rw [IpMisc.rrBytes_cons]
    have := ih (fun x hx => h x (by simp [hx]))
    have := wireName_length (h r (by simp)).1
    simp [RR.bytes, u16_length, u32_length]; omega

/-- The records of a message with their sections. -/
def recordsOf (m : Msg) : List (Purpose × RR) :=
  m.an.map (fun r => (.answer, r)) ++ (m.ns.map (fun r => (.nameServer, r)) ++ m.ar.map (fun r => (.additional, r)))

theorem recordsOf_snd (m : Msg) : (recordsOf m).map (·.2) = m.an ++ (m.ns ++ m.ar) := by
  simp only [recordsOf, List.map_append, List.map_map]
  have e : ∀ (p : Purpose) (l : List RR), l.map ((fun x : Purpose × RR => x.2) ∘ fun r => (p, r)) = l := by
    intro p l; induction l <;> simp_all
  rw [e, e, e]

theorem recordsOf_length (m : Msg) : (recordsOf m).length = m.an.length + m.ns.length + m.ar.length := by
  simp [recordsOf]; omega

theorem recordsOf_purpose {m : Msg} (hq : 0 < m.qs.length) (i : Nat) (h : i < (recordsOf m).length) :
    determinePurpose (Msg.counts m) (m.qs.length + 1 + i) = (recordsOf m)[i].1 := by
  have hp := items_purpose m hq (m.qs.length + i) (by
    rw [items_length]
    have : (Msg.counts m).all = m.qs.length + m.an.length + m.ns.length + m.ar.length := rfl
    rw [recordsOf_length] at h
    omega)
  rw [show m.qs.length + 1 + i = 1 + (m.qs.length + i) by omega, hp]
  have e : items m = m.qs.map qItem ++ (recordsOf m).map (fun x => rItem x.1 x.2) := by
    simp [items, recordsOf, Function.comp_def]
  simp only [e]
  rw [List.getElem_append_right (by simp)]
  simp [rItem]

end Verif.Show
