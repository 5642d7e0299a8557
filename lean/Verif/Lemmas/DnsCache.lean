import Verif.Model.DnsCache
import Verif.Spec.DnsCache
import Verif.Props.IHeader
import Verif.Props.Cache
import Verif.Props.CacheTtl
/-! Lemmas on what a response adds to the cache. -/

namespace Verif.DnsCache
open Message Name Parser Generator Spec
open Verif.Msg (memAt)

/-! ### names -/

theorem denotes_congr {mem mem' : Nat → Byte} {len len' p k : Nat} {ls : List (List Byte)} (h : Denotes mem len p ls k)
    (hl : len ≤ len') (hm : ∀ i, i < len → mem' i = mem i) : Denotes mem' len' p ls k := by
  induction h with
  | root p h hp => exact .root p (by rw [hm _ hp]; exact h) (by omega)
  | label p l ls k h1 h2 hc hl' hp _ ih =>
    exact .label p l ls k h1 h2 (by rw [hm _ (by omega)]; exact hc)
      (fun i hi => by rw [hm _ (by omega)]; exact hl' i hi) (by omega) ih
  | pointer p q ls k hp hq hc hd _ ih =>
    exact .pointer p q ls k (by omega) hq (by rw [hm _ (by omega)]; exact hc) (by rw [hm _ (by omega)]; exact hd) ih

theorem bytesAt_append {b post : List Byte} {i : Nat} (h : i < b.length) : memAt (b ++ post) i = bytesAt b i := by
  simp [memAt, bytesAt, List.getD_eq_getElem?_getD, List.getElem?_append_left h]

/-- A decoder that ends delivers the name. -/
theorem decode {b post : List Byte} {p k N fuel : Nat} {ls : List (List Byte)}
    (h : Denotes (bytesAt b) b.length p ls k) (hN : (text ls).length < N)
    (hf : (getHostName (memAt (b ++ post)) b.length p (some N) fuel).out ≠ .noFuel) :
    (getHostName (memAt (b ++ post)) b.length p (some N) fuel).out = .ok k (text ls ++ [0]) := by
  have hd : Denotes (memAt (b ++ post)) b.length p ls k :=
    denotes_congr h (Nat.le_refl _) (fun i hi => bytesAt_append hi)
  obtain ⟨f0, h0⟩ := compressed_name_decoded _ _ p k N ls hd hN
  have := (h0 (max f0 fuel) (by omega)).1
  unfold getHostName at this hf ⊢
  rw [getLoop_mono hf _ (Nat.le_max_right f0 fuel)] at this
  exact this

theorem split_dot {a b r s : List Byte} (ha : ∀ c ∈ a, c ≠ 46) (hb : ∀ c ∈ b, c ≠ 46)
    (h : a ++ 46 :: r = b ++ 46 :: s) : a = b ∧ r = s := by
  induction a generalizing b with
  | nil =>
    cases b with
    | nil => simpa using h
    | cons y b => simp at h; exact absurd h.1.symm (hb y (by simp))
  | cons x a ih =>
    cases b with
    | nil => simp at h; exact absurd h.1 (ha x (by simp))
    | cons y b =>
      simp only [List.cons_append, List.cons.injEq] at h
      obtain ⟨rfl, h⟩ := h
      obtain ⟨rfl, rfl⟩ := ih (fun c hc => ha c (by simp [hc])) (fun c hc => hb c (by simp [hc])) h
      exact ⟨rfl, rfl⟩

/-- Names without dots in their labels are told apart by their texts. -/
theorem text_inj {a b : List (List Byte)} (ha : ValidName a) (hb : ValidName b) (h : text a = text b) : a = b := by
  induction a generalizing b with
  | nil =>
    cases b with
    | nil => rfl
    | cons y b =>
      have hy := (hb y (by simp)).1
      cases b with
      | nil => simp [text] at h; rw [h] at hy; simp at hy
      | cons y' b => simp [text] at h
  | cons x a ih =>
    have hx := ha x (by simp)
    cases b with
    | nil =>
      cases a with
      | nil => simp [text] at h; rw [h] at hx; simp [ValidLabel] at hx
      | cons x' a => simp [text] at h
    | cons y b =>
      have hy := hb y (by simp)
      have dx : ∀ c ∈ x, c ≠ 46 := fun c hc => (hx.2.2 c hc).1
      have dy : ∀ c ∈ y, c ≠ 46 := fun c hc => (hy.2.2 c hc).1
      cases a with
      | nil =>
        cases b with
        | nil => simp [text] at h; rw [h]
        | cons y' b =>
          simp only [text] at h
          exact absurd rfl (dx 46 (by rw [h]; simp))
      | cons x' a =>
        cases b with
        | nil =>
          simp only [text] at h
          exact absurd rfl (dy 46 (by rw [← h]; simp))
        | cons y' b =>
          simp only [text] at h
          obtain ⟨rfl, h'⟩ := split_dot dx dy h
          rw [ih (b := y' :: b) (fun l hl => ha l (List.mem_cons_of_mem _ hl)) (fun l hl => hb l (List.mem_cons_of_mem _ hl)) h']

/-! ### keys -/

theorem hex_byte : ∀ n, n < 16 → hexDigit n ≠ 32 ∧ hexDigit n ≠ 0 := by
  have h : ∀ n : Fin 16, hexDigit n ≠ 32 ∧ hexDigit n ≠ 0 := by decide
  intro n hn; exact h ⟨n, hn⟩

theorem hex_digit_inj {a b : Nat} (ha : a < 16) (hb : b < 16) (h : hexDigit a = hexDigit b) : a = b := by
  have : ∀ a b : Fin 16, hexDigit a = hexDigit b → a = b := by decide
  exact congrArg Fin.val (this ⟨a, ha⟩ ⟨b, hb⟩ h)

theorem hexText_clean (d n : Nat) : ∀ c ∈ hexText d n, c ≠ 32 ∧ c ≠ 0 := by
  induction d generalizing n with
  | zero => simp [hexText]
  | succ d ih =>
    intro c hc
    unfold hexText at hc
    split at hc
    · simp at hc; subst hc; exact hex_byte _ (by assumption)
    · simp at hc
      rcases hc with hc | rfl
      · exact ih _ c hc
      · exact hex_byte _ (by omega)

theorem hexText_length (d n : Nat) : (hexText d n).length ≤ d := by
  induction d generalizing n with
  | zero => simp [hexText]
  | succ d ih =>
    unfold hexText
    split
    · simp
    · simp; exact ih _

theorem hexText_ne_nil {d n : Nat} (hd : 0 < d) : hexText d n ≠ [] := by
  obtain ⟨d, rfl⟩ : ∃ k, d = k + 1 := ⟨d - 1, by omega⟩
  unfold hexText
  split <;> simp

theorem hexText_inj {d a b : Nat} (ha : a < 16 ^ d) (hb : b < 16 ^ d) (h : hexText d a = hexText d b) : a = b := by
  induction d generalizing a b with
  | zero => simp at ha hb; omega
  | succ d ih =>
    have hpos : d = 0 → a < 16 ∧ b < 16 := by rintro rfl; simpa using ⟨ha, hb⟩
    rw [Nat.pow_succ] at ha hb
    unfold hexText at h
    split at h <;> split at h
    · simp only [List.cons.injEq, and_true] at h; exact hex_digit_inj (by assumption) (by assumption) h
    · have := congrArg List.length h
      simp at this
      by_cases hd : d = 0
      · have := hpos hd; omega
      · exact absurd this (hexText_ne_nil (by omega))
    · have := congrArg List.length h
      simp at this
      by_cases hd : d = 0
      · have := hpos hd; omega
      · exact absurd this (hexText_ne_nil (by omega))
    · obtain ⟨h1, h2⟩ := List.append_inj' h rfl
      have h1 := ih (by omega) (by omega) h1
      simp at h2
      have := hex_digit_inj (by omega) (by omega) h2
      omega

theorem split_last_blank {a b r s : List Byte} (hr : ∀ c ∈ r, c ≠ 32) (hs : ∀ c ∈ s, c ≠ 32)
    (h : a ++ 32 :: r = b ++ 32 :: s) : a = b ∧ r = s := by
  have h := congrArg List.reverse h
  simp only [List.reverse_append, List.reverse_cons, List.append_assoc, List.singleton_append] at h
  have : ∀ {r s a b : List Byte}, (∀ c ∈ r, c ≠ 32) → (∀ c ∈ s, c ≠ 32) → r ++ 32 :: a = s ++ 32 :: b → r = s ∧ a = b := by
    intro r
    induction r with
    | nil =>
      intro s a b _ hs h
      cases s with
      | nil => simpa using h
      | cons y s => simp at h; exact absurd h.1.symm (hs y (by simp))
    | cons x r ih =>
      intro s a b hr hs h
      cases s with
      | nil => simp at h; exact absurd h.1 (hr x (by simp))
      | cons y s =>
        simp only [List.cons_append, List.cons.injEq] at h
        obtain ⟨rfl, h⟩ := h
        obtain ⟨rfl, rfl⟩ := ih (fun c hc => hr c (by simp [hc])) (fun c hc => hs c (by simp [hc])) h
        exact ⟨rfl, rfl⟩
  obtain ⟨h1, h2⟩ := this (by simpa using hr) (by simpa using hs) h
  exact ⟨by simpa using congrArg List.reverse h2, by simpa using congrArg List.reverse h1⟩

theorem keyOf_inj {n n' : List Byte} {t t' k k' : Nat} (ht : t < 65536) (ht' : t' < 65536) (hk : k < 65536) (hk' : k' < 65536)
    (h : keyOf n t k = keyOf n' t' k') : n = n' ∧ t = t' ∧ k = k' := by
  unfold keyOf at h
  have e : ∀ (a b c : List Byte), a ++ 32 :: (b ++ 32 :: c) = (a ++ 32 :: b) ++ 32 :: c := by intros; simp
  rw [e, e] at h
  obtain ⟨h1, h2⟩ := split_last_blank (fun c hc => (hexText_clean _ _ c hc).1) (fun c hc => (hexText_clean _ _ c hc).1) h
  obtain ⟨h3, h4⟩ := split_last_blank (fun c hc => (hexText_clean _ _ c hc).1) (fun c hc => (hexText_clean _ _ c hc).1) h1
  exact ⟨h3, hexText_inj (by omega) (by omega) h4, hexText_inj (by omega) (by omega) h2⟩

theorem keyOf_no_zero {n : List Byte} {t k : Nat} (h : ∀ c ∈ n, c ≠ 0) : (0 : Byte) ∉ keyOf n t k := by
  intro h0
  simp only [keyOf, List.mem_append, List.mem_cons] at h0
  rcases h0 with h0 | h0 | h0 | h0 | h0
  · exact h 0 h0 rfl
  · simp at h0
  · exact (hexText_clean _ _ _ h0).2 rfl
  · simp at h0
  · exact (hexText_clean _ _ _ h0).2 rfl

theorem cstr_no_zero (b : List Byte) : ∀ c ∈ cstr b, c ≠ 0 := by
  unfold cstr
  induction b with
  | nil => simp
  | cons x b ih =>
    intro c hc
    rw [List.takeWhile_cons] at hc
    split at hc
    · rename_i hx
      rcases List.mem_cons.1 hc with rfl | hc
      · simpa using hx
      · exact ih c hc
    · simp at hc

theorem hex_length_small {n : Nat} (h : n < 256) : (hexText 4 n).length ≤ 2 := by
  unfold hexText
  split
  · simp
  · unfold hexText
    rw [if_pos (by omega)]; simp

/-! ### items -/

/-- The data kept of a record. -/
def form : Value → List Byte
  | .raw d => d
  | .name ls => text ls ++ [0]
  | .mx pref ls => u16 pref ++ (text ls ++ [0])

/-- The key of a record. -/
def factKey (f : Fact) : List Byte := keyOf (text f.owner) f.type 1

/-- The record fits the 512 bytes of an item. -/
def Small (f : Fact) : Prop := 1 + (factKey f).length + 1 + (form f.value).length < 512

theorem factKey_length {f : Fact} (ho : RfcName f.owner) (ht : Cached f.type) : (factKey f).length ≤ 258 := by
  have h1 := ho.2
  have h2 := hex_length_small (n := f.type) (by unfold Cached at ht; omega)
  have h3 : (hexText 4 1).length = 1 := by decide
  unfold factKey keyOf
  simp only [List.length_append, List.length_cons]
  omega

theorem cached_iff (t : Nat) : cachedType t = true ↔ Cached t := by
  simp [cachedType, Cached]
  omega

theorem nameItem_eq {b post : List Byte} {p k fuel avail : Nat} {ls : List (List Byte)} {res : Option (List Byte)}
    (h : Denotes (bytesAt b) b.length p ls k) (hv : RfcName ls) (ha : 3 ≤ avail)
    (e : nameItem (b ++ post) b.length fuel p avail = some res) :
    res = if (text ls ++ [0]).length ≤ avail then some (text ls ++ [0]) else none := by
  unfold nameItem at e
  rw [if_neg (by omega)] at e
  have hd := decode (post := post) (fuel := fuel) (N := 254) h (by have := hv.2; omega)
  by_cases hf : (getHostName (memAt (b ++ post)) b.length p (some 254) fuel).out = .noFuel
  · rw [hf] at e; simp at e
  · rw [hd hf] at e
    dsimp only at e
    rw [cstr_text hv.1 []] at e
    simp only [List.length_append, List.length_singleton]
    split at e <;> rename_i hc
    · rw [if_pos hc]; cases e; rfl
    · rw [if_neg hc]; cases e; rfl

theorem drop_rdata {b pre rest post : List Byte} {r : RR} {row : Nat} (hb : b = pre ++ (r.bytes ++ rest))
    (hr : row = pre.length + r.name.length + 10) : (b ++ post).drop row = r.rdata ++ (rest ++ post) := by
  subst hr
  have e : b ++ post = (pre ++ (r.name ++ (u16 r.type ++ (u16 r.klass ++ (u32 r.ttl ++ u16 r.rdata.length))))) ++ (r.rdata ++ (rest ++ post)) := by
    rw [hb]; simp [RR.bytes]
  rw [e, List.drop_left' (by simp [u16_length, u32_length]; omega)]

/-- The item of a record is its key and its data, if they fit. -/
theorem itemOf_eq {b pre rest post : List Byte} {r : RR} {f : Fact} {fuel : Nat} {res : Option (List Byte × List Byte)}
    (hb : b = pre ++ (r.bytes ++ rest)) (hw : WireName r.name) (hr : Reads b pre.length r f) (hc : Cached r.type)
    (e : itemOf (b ++ post) b.length fuel r.type r.klass pre.length r.rdata.length = some res) :
    (Small f → res = some (factKey f, form f.value)) ∧ (¬ Small f → res = none) := by
  obtain ⟨k, ho⟩ := hr.ownerAt
  have hd := decode (post := post) (fuel := fuel) (N := 511) ho (by have := hr.owner.2; omega)
  have hkl := factKey_length hr.owner (by rw [← hr.type]; exact hc)
  have hrow : rowData (b ++ post) pre.length = some (pre.length + r.name.length + 10) := by
    unfold rowData
    rw [skipAt_eq (pre := pre) (nb := r.name)
      (post := u16 r.type ++ (u16 r.klass ++ (u32 r.ttl ++ (u16 r.rdata.length ++ r.rdata))) ++ (rest ++ post)) (by rw [hb]; simp [RR.bytes]) rfl hw]
    rfl
  have hdrop := drop_rdata (post := post) hb rfl
  have hbl : pre.length + r.name.length + 10 + r.rdata.length ≤ b.length := by
    rw [hb]; simp [rr_bytes_length]; omega
  unfold itemOf at e
  by_cases hf : (getHostName (memAt (b ++ post)) b.length pre.length (some 511) fuel).out = .noFuel
  · rw [hf] at e; simp at e
  · rw [hd hf] at e
    dsimp only at e
    rw [cstr_text hr.owner.1 [], hr.klass, hr.type, show keyOf (text f.owner) f.type 1 = factKey f from rfl,
      if_neg (by omega), hrow] at e
    dsimp only at e
    have hdata : ∀ d, cacheData (b ++ post) b.length fuel f.type (pre.length + r.name.length + 10) r.rdata.length
        (512 - (1 + (factKey f).length + 1)) = some d →
        (d = some (form f.value) ∧ (form f.value).length ≤ 512 - (1 + (factKey f).length + 1)) ∨
        (d = none ∧ 512 - (1 + (factKey f).length + 1) ≤ (form f.value).length) := by
      intro d hd
      have hv := hr.value
      unfold cacheData at hd
      cases hfv : f.value with
      | raw dd =>
        rw [hfv] at hv
        obtain ⟨h1, h2, h3⟩ := hv
        rw [if_neg (by omega), if_neg (by omega)] at hd
        have h3 : dd.length ≠ 0 := by simpa using h3
        simp only [form]
        split at hd
        · rename_i hc
          cases hd
          rw [h2] at hc
          exact .inr ⟨rfl, by omega⟩
        · rename_i hc
          rw [if_neg (by simp; omega)] at hd
          cases hd
          exact .inl ⟨by rw [hdrop, List.take_left' rfl, h2], by rw [h2] at hc; omega⟩
      | name ls =>
        rw [hfv] at hv
        obtain ⟨h1, h2, k', h3⟩ := hv
        rw [if_pos (by omega)] at hd
        have := nameItem_eq h3 h2 (by omega) hd
        simp only [form]
        split at this
        · rename_i hc; exact .inl ⟨this, hc⟩
        · rename_i hc; exact .inr ⟨this, by omega⟩
      | mx pref ls =>
        rw [hfv] at hv
        obtain ⟨h1, h2, h3, h4, h5, k', h6⟩ := hv
        rw [if_neg (by omega), if_pos h1, if_neg (by omega), if_neg (by omega), if_neg (by simp; omega), if_neg (by omega)] at hd
        rw [hdrop, List.take_append_of_le_length (by omega), h4] at hd
        cases hn : nameItem (b ++ post) b.length fuel (pre.length + r.name.length + 10 + 2) (512 - (1 + (factKey f).length + 1) - 2) with
        | none => rw [hn] at hd; simp at hd
        | some o =>
          have := nameItem_eq h6 h2 (by omega) hn
          rw [hn] at hd
          simp only [Option.map_some, Option.some.injEq] at hd
          simp only [form]
          have hl : (u16 pref ++ (text ls ++ [0])).length = 2 + (text ls ++ [0]).length := by simp [u16_length]
          rw [hl, ← hd]
          split at this
          · rename_i hc
            rw [this]; exact .inl ⟨rfl, by omega⟩
          · rename_i hc
            rw [this]; exact .inr ⟨rfl, by omega⟩
    have hs : Small f ↔ (form f.value).length < 512 - (1 + (factKey f).length + 1) := by unfold Small; omega
    rw [hs]
    cases hcd : cacheData (b ++ post) b.length fuel f.type (pre.length + r.name.length + 10) r.rdata.length
        (512 - (1 + (factKey f).length + 1)) with
    | none => rw [hcd] at e; simp at e
    | some d =>
      rw [hcd] at e
      rcases hdata d hcd with ⟨rfl, h1⟩ | ⟨rfl, h1⟩
      · dsimp only at e
        split at e <;> rename_i hge
        · cases e; exact ⟨fun hlt => by omega, fun _ => rfl⟩
        · cases e; exact ⟨fun _ => rfl, fun hn => by omega⟩
      · simp only [Option.some.injEq] at e
        subst e
        exact ⟨fun hlt => by omega, fun _ => rfl⟩

/-! ### a whole response -/

/-- What the store is told of a record. -/
def opOf (s : Settings) (question behind : List Byte) (f : Fact) (t : Int) : Cache.Op :=
  .add (factKey f) (form f.value) (CacheTtl.effective s.rules s.fnm question behind (factKey f) f.ttl) t

/-- The operations of the records the iterator visits. -/
def opsList (s : Settings) (b : List Byte) (len fuel : Nat) (question behind : List Byte) (clock : Nat → Int) :
    List Itr → Option (List Cache.Op)
  | [] => some []
  | x :: l =>
    match recordOp s b len fuel question behind (clock x.num) x, opsList s b len fuel question behind clock l with
    | some o, some os => some (o ++ os)
    | _, _ => none

theorem recordOps_chain {s : Settings} {b : List Byte} {len fuel : Nat} {question behind : List Byte} {clock : Nat → Int}
    {c : Counts} (l : List Itr) : ∀ {it : Itr} {n : Nat}, Chain b len c it l → l.length < n →
    recordOps s b len fuel question behind clock c n it = opsList s b len fuel question behind clock l := by
  induction l with
  | nil =>
    intro it n hc hn
    obtain ⟨n, rfl⟩ : ∃ k, n = k + 1 := ⟨n - 1, by omega⟩
    cases hc with
    | nil hx => simp [recordOps, hx, opsList]
  | cons x l ih =>
    intro it n hc hn
    obtain ⟨n, rfl⟩ : ∃ k, n = k + 1 := ⟨n - 1, by omega⟩
    cases hc with
    | cons hx hp ht =>
      simp only [recordOps, hx, opsList]
      rw [ih ht (by simp at hn; omega)]
      cases recordOp s b len fuel question behind (clock x.num) x <;>
        cases opsList s b len fuel question behind clock l <;> rfl

theorem opsList_append {s : Settings} {b : List Byte} {len fuel : Nat} {question behind : List Byte} {clock : Nat → Int}
    (l l' : List Itr) (h : opsList s b len fuel question behind clock l = some []) :
    opsList s b len fuel question behind clock (l ++ l') = opsList s b len fuel question behind clock l' := by
  induction l with
  | nil => rfl
  | cons x l ih =>
    simp only [opsList] at h
    cases h1 : recordOp s b len fuel question behind (clock x.num) x with
    | none => rw [h1] at h; simp at h
    | some o =>
      cases h2 : opsList s b len fuel question behind clock l with
      | none => rw [h1, h2] at h; simp at h
      | some os =>
        rw [h1, h2] at h
        simp only [Option.some.injEq, List.append_eq_nil_iff] at h
        obtain ⟨rfl, rfl⟩ := h
        simp only [List.cons_append, opsList, h1, ih h2]
        cases opsList s b len fuel question behind clock l' <;> rfl

theorem opsList_questions {s : Settings} {b : List Byte} {len fuel : Nat} {question behind : List Byte} {clock : Nat → Int}
    (qs : List Question) (d p n : Nat) :
    opsList s b len fuel question behind clock (expect d p n (qs.map qItem)) = some [] := by
  induction qs generalizing d p n with
  | nil => rfl
  | cons q qs ih =>
    simp only [List.map_cons, expect, opsList, ih]
    simp [recordOp, Item.itr, qItem]

/-- The operations are those of the facts that fit an item. -/
def OpsOf (s : Settings) (question behind : List Byte) (clock : Nat → Int) (fs : List Fact) (ops : List Cache.Op) : Prop :=
  (∀ o ∈ ops, ∃ f ∈ fs, Small f ∧ ∃ j, o = opOf s question behind f (clock j)) ∧
  (∀ f ∈ fs, Small f → ∃ j, opOf s question behind f (clock j) ∈ ops)

theorem opsList_records {s : Settings} {b post : List Byte} {fuel : Nat} {question behind : List Byte} {clock : Nat → Int}
    (ps : List (Purpose × RR)) : ∀ {pre rest : List Byte} {d n : Nat} {fs : List Fact} {ops : List Cache.Op},
    (∀ p ∈ ps, p.1 ≠ .unknown ∧ p.1 ≠ .question ∧ p.2.Valid) → b = pre ++ (rrBytes (ps.map (·.2)) ++ rest) →
    Says b pre.length (ps.map (·.2)) fs →
    opsList s (b ++ post) b.length fuel question behind clock (expect d pre.length n (ps.map fun p => rItem p.1 p.2)) = some ops →
    OpsOf s question behind clock fs ops := by
  induction ps with
  | nil =>
    intro pre rest d n fs ops _ _ hs e
    cases hs
    simp only [List.map_nil, expect, opsList, Option.some.injEq] at e
    subst e
    exact ⟨by simp, by simp⟩
  | cons x ps ih =>
    intro pre rest d n fs ops hv hb hs e
    obtain ⟨hx1, hx2, hx3⟩ := hv x (by simp)
    have hb' : b = pre ++ (x.2.bytes ++ (rrBytes (ps.map (·.2)) ++ rest)) := by rw [hb]; simp [rrBytes]
    have hb2 : b = (pre ++ x.2.bytes) ++ (rrBytes (ps.map (·.2)) ++ rest) := by rw [hb']; simp
    have hv' : ∀ p ∈ ps, p.1 ≠ .unknown ∧ p.1 ≠ .question ∧ p.2.Valid := fun p hp => hv p (by simp [hp])
    have hlen : (pre ++ x.2.bytes).length = pre.length + x.2.bytes.length := by simp
    simp only [List.map_cons, expect, opsList, rItem_bytes] at e
    cases h1 : recordOp s (b ++ post) b.length fuel question behind (clock ((rItem x.1 x.2).itr d pre.length n).num)
        ((rItem x.1 x.2).itr d pre.length n) with
    | none => rw [h1] at e; simp at e
    | some o =>
      rw [h1] at e
      cases h2 : opsList s (b ++ post) b.length fuel question behind clock (expect ((rItem x.1 x.2).itr d pre.length n).dataLen
          (pre.length + x.2.bytes.length) (n + 1) (ps.map fun p => rItem p.1 p.2)) with
      | none => rw [h2] at e; simp at e
      | some os =>
        rw [h2] at e
        simp only [Option.some.injEq] at e
        subst e
        rw [← hlen] at h2
        have hop : recordOp s (b ++ post) b.length fuel question behind (clock n) ⟨some pre.length, n, x.1, x.2.type, x.2.klass, x.2.rdata.length⟩ = some o := by
          have : (rItem x.1 x.2).itr d pre.length n = ⟨some pre.length, n, x.1, x.2.type, x.2.klass, x.2.rdata.length⟩ := by
            simp [Item.itr, rItem, hx2]
          rw [← this]; exact h1
        unfold recordOp at hop
        cases hs with
        | skip hn hs =>
          rw [if_neg (by rintro ⟨_, _, h3, h4⟩; exact hn ⟨(cached_iff _).1 h3, h4⟩)] at hop
          cases hop
          exact ih hv' hb2 (by rw [hlen]; exact hs) h2
        | @cons _ _ _ f0 _ hr hc hs =>
          obtain ⟨i1, i2⟩ := ih hv' hb2 (by rw [hlen]; exact hs) h2
          rw [if_pos ⟨hx1, hx2, (cached_iff _).2 hc, hr.klass⟩] at hop
          dsimp only at hop
          cases hi : itemOf (b ++ post) b.length fuel x.2.type x.2.klass pre.length x.2.rdata.length with
          | none => rw [hi] at hop; simp at hop
          | some res =>
            rw [hi] at hop
            obtain ⟨k1, k2⟩ := itemOf_eq hb' hx3.1 hr hc hi
            by_cases hsm : Small f0
            · rw [k1 hsm] at hop
              dsimp only at hop
              have httl : getTTL (b ++ post) pre.length = some x.2.ttl := by
                unfold getTTL
                rw [skipAt_eq (pre := pre) (nb := x.2.name)
                  (post := u16 x.2.type ++ (u16 x.2.klass ++ (u32 x.2.ttl ++ (u16 x.2.rdata.length ++ x.2.rdata))) ++ (rrBytes (ps.map (·.2)) ++ rest ++ post))
                  (by rw [hb']; simp [RR.bytes]) rfl hx3.1]
                dsimp only
                exact u32At_eq (pre := pre ++ (x.2.name ++ (u16 x.2.type ++ u16 x.2.klass)))
                  (post := u16 x.2.rdata.length ++ (x.2.rdata ++ (rrBytes (ps.map (·.2)) ++ rest ++ post)))
                  (by rw [hb']; simp [RR.bytes]) (by simp [u16_length]; omega) hx3.2.2.2.2.2.1
              rw [httl] at hop
              dsimp only at hop
              cases hop
              rw [hr.ttl]
              refine ⟨fun o ho => ?_, fun f hf hfs => ?_⟩
              · rcases List.mem_append.1 ho with ho | ho
                · exact ⟨f0, by simp, hsm, n, by simpa [opOf] using ho⟩
                · obtain ⟨f, h1, h2⟩ := i1 o ho
                  exact ⟨f, by simp [h1], h2⟩
              · rcases List.mem_cons.1 hf with rfl | hf
                · exact ⟨n, by simp [opOf]⟩
                · obtain ⟨j, hj⟩ := i2 f hf hfs
                  exact ⟨j, by simp [hj]⟩
            · rw [k2 hsm] at hop
              cases hop
              refine ⟨fun o ho => ?_, fun f hf hfs => ?_⟩
              · obtain ⟨f, h1, h2⟩ := i1 o (by simpa using ho)
                exact ⟨f, by simp [h1], h2⟩
              · rcases List.mem_cons.1 hf with rfl | hf
                · exact absurd hfs hsm
                · obtain ⟨j, hj⟩ := i2 f hf hfs
                  exact ⟨j, by simpa using hj⟩

/-- What a response tells the store. -/
theorem addOps_eq {s : Settings} {m : Msg} {fs : List Fact} {post : List Byte} {fuel : Nat} {question behind : List Byte}
    {clock : Nat → Int} {first : Bool} {ops : List Cache.Op} (hm : Response m fs)
    (e : addOps s (m.bytes ++ post) m.bytes.length fuel question behind clock first = some ops) :
    (first = false ∧ s.cfg.parallel = false → ops = []) ∧
    (first = true ∨ s.cfg.parallel = true → OpsOf s question behind clock fs ops) := by
  obtain ⟨hv, hq, hs⟩ := hm
  unfold addOps at e
  by_cases hf : first = false ∧ s.cfg.parallel = false
  · rw [if_pos hf] at e
    cases e
    refine ⟨fun _ => rfl, fun h => ?_⟩
    obtain ⟨h1, h2⟩ := hf
    rcases h with h | h
    · rw [h1] at h; simp at h
    · rw [h2] at h; simp at h
  · refine ⟨fun h => absurd h hf, fun _ => ?_⟩
    have h12 : 12 ≤ m.bytes.length := by rw [Msg.bytes, List.length_append, header_length hv]; omega
    rw [if_neg hf, if_neg (by simp [initOk]; omega), counts_eq hv] at e
    dsimp only at e
    rw [recordOps_chain _ (chain_msg m post m.bytes.length hv (Nat.le_refl _) hq)
      (by rw [expect_length, items_length]; omega)] at e
    have hit : items m = m.qs.map qItem ++ ((m.an.map (Purpose.answer, ·) ++ (m.ns.map (Purpose.nameServer, ·) ++
        m.ar.map (Purpose.additional, ·))).map fun p => rItem p.1 p.2) := by
      simp [items, Function.comp_def]
    rw [hit] at e
    obtain ⟨d', hex⟩ := expect_append (m.qs.map qItem) ((m.an.map (Purpose.answer, ·) ++ (m.ns.map (Purpose.nameServer, ·) ++
        m.ar.map (Purpose.additional, ·))).map fun p => rItem p.1 p.2) 0 12 1
    rw [hex, opsList_append _ _ (opsList_questions _ _ _ _), flatten_q] at e
    have hpre : (m.header ++ qBytes m.qs).length = 12 + (qBytes m.qs).length := by simp [header_length hv]
    rw [← hpre] at e
    have hmap : (m.an.map (Purpose.answer, ·) ++ (m.ns.map (Purpose.nameServer, ·) ++
        m.ar.map (Purpose.additional, ·))).map (·.2) = m.an ++ (m.ns ++ m.ar) := by
      simp [Function.comp_def]
    refine opsList_records _ (rest := []) ?_ ?_ ?_ e
    · intro p hp
      simp only [List.mem_append, List.mem_map] at hp
      rcases hp with ⟨r, hr, rfl⟩ | ⟨r, hr, rfl⟩ | ⟨r, hr, rfl⟩
      · exact ⟨by simp, by simp, hv.an r hr⟩
      · exact ⟨by simp, by simp, hv.ns r hr⟩
      · exact ⟨by simp, by simp, hv.ar r hr⟩
    · rw [hmap]; simp [Msg.bytes, Msg.body, rrBytes_append]
    · rw [hmap, hpre]; exact hs

end Verif.DnsCache
