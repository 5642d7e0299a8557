import Verif.Model.IpChunk
import Verif.Spec.IpChunk
import Verif.Lemmas.BstFold
import Verif.Lemmas.Byte
import Verif.Props.IpText
/-! Lemmas for `Props/IpChunk.lean`. -/

namespace Verif.IpChunk
open IpText

/-! ### Numbers of byte lists -/

theorem number_foldl (a : List Byte) (n : Nat) :
    a.foldl (fun n b => n * 256 + b.toNat) n = n * 256 ^ a.length + number a := by
  unfold number
  induction a generalizing n with
  | nil => simp
  | cons b a ih =>
    simp only [List.foldl_cons, List.length_cons]
    rw [ih, ih (0 * 256 + b.toNat), Nat.pow_succ]
    simp [Nat.add_mul, Nat.mul_assoc, Nat.mul_comm 256, Nat.add_assoc]

theorem number_nil : number [] = 0 := rfl

theorem number_cons (b : Byte) (a : List Byte) : number (b :: a) = b.toNat * 256 ^ a.length + number a := by
  have := number_foldl a b.toNat
  rw [← this]
  simp [number]

theorem number_append (a b : List Byte) : number (a ++ b) = number a * 256 ^ b.length + number b := by
  rw [← number_foldl]; simp [number]

theorem number_lt (a : List Byte) : number a < 256 ^ a.length := by
  induction a with
  | nil => simp [number_nil]
  | cons b a ih =>
    rw [number_cons, List.length_cons, Nat.pow_succ]
    have hb : b.toNat + 1 ≤ 256 := UInt8.toNat_lt b
    have := Nat.mul_le_mul_right (256 ^ a.length) hb
    rw [Nat.add_mul] at this
    rw [Nat.mul_comm _ 256]
    omega

theorem memcmp_sign {x y : List Byte} (h : x.length = y.length) :
    (memcmp x y < 0 ↔ number x < number y) ∧ (memcmp x y = 0 ↔ number x = number y) := by
  induction x generalizing y with
  | nil =>
    cases y with
    | nil => simp [memcmp]
    | cons => simp at h
  | cons a x ih =>
    cases y with
    | nil => simp at h
    | cons b y =>
      simp only [List.length_cons, Nat.add_right_cancel_iff] at h
      have hx := number_lt x
      have hy := number_lt y
      rw [number_cons, number_cons, memcmp]
      rw [← h] at hy ⊢
      by_cases hab : a = b
      · subst hab
        rw [if_pos rfl]
        have := ih h
        rw [this.1, this.2]
        constructor <;> omega
      · rw [if_neg hab]
        have hne : a.toNat ≠ b.toNat := fun e => hab (UInt8.toNat_inj.1 e)
        rcases Nat.lt_or_ge a.toNat b.toNat with hl | hg
        · have := Nat.mul_le_mul_right (256 ^ x.length) (show a.toNat + 1 ≤ b.toNat by omega)
          rw [Nat.add_mul] at this
          constructor <;> constructor <;> intro _ <;> omega
        · have := Nat.mul_le_mul_right (256 ^ x.length) (show b.toNat + 1 ≤ a.toNat by omega)
          rw [Nat.add_mul] at this
          constructor <;> constructor <;> intro _ <;> omega

/-! ### The mask -/

theorem and_high : ∀ b : Byte,
    (b &&& 255).toNat = b.toNat ∧ (b &&& 254).toNat = b.toNat / 2 * 2 ∧ (b &&& 252).toNat = b.toNat / 4 * 4 ∧
    (b &&& 248).toNat = b.toNat / 8 * 8 ∧ (b &&& 240).toNat = b.toNat / 16 * 16 ∧
    (b &&& 224).toNat = b.toNat / 32 * 32 ∧ (b &&& 192).toNat = b.toNat / 64 * 64 ∧
    (b &&& 128).toNat = b.toNat / 128 * 128 ∧ (b &&& 0).toNat = 0 :=
  forall_byte _ (by decide +kernel)

theorem number_four (a b c d : Byte) :
    number [a, b, c, d] = a.toNat * 16777216 + b.toNat * 65536 + c.toNat * 256 + d.toNat := by
  simp [number]; omega

theorem mask_number (x : List Byte) (hx : x.length = 4) (n : Nat) (h0 : 0 < n) (h : n < 32) :
    number (List.zipWith (· &&& ·) x (maskBytes n)) = number x / 2 ^ (32 - n) * 2 ^ (32 - n) := by
  match x, hx with
  | [a, b, c, d], _ =>
    have ha := and_high a
    have hb := and_high b
    have hc := and_high c
    have hd := and_high d
    have la := UInt8.toNat_lt a
    have lb := UInt8.toNat_lt b
    have lc := UInt8.toNat_lt c
    have ld := UInt8.toNat_lt d
    have key : ∀ n : Fin 32, 0 < n.1 →
        number (List.zipWith (· &&& ·) [a, b, c, d] (maskBytes n.1)) =
          number [a, b, c, d] / 2 ^ (32 - n.1) * 2 ^ (32 - n.1) := by
      intro n hn
      match n with
      | ⟨k + 32, hk⟩ => omega
      | ⟨0, _⟩ => simp at hn
      | ⟨1, _⟩ | ⟨2, _⟩ | ⟨3, _⟩ | ⟨4, _⟩ | ⟨5, _⟩ | ⟨6, _⟩ | ⟨7, _⟩ | ⟨8, _⟩ | ⟨9, _⟩ | ⟨10, _⟩
      | ⟨11, _⟩ | ⟨12, _⟩ | ⟨13, _⟩ | ⟨14, _⟩ | ⟨15, _⟩ | ⟨16, _⟩ | ⟨17, _⟩ | ⟨18, _⟩ | ⟨19, _⟩ | ⟨20, _⟩
      | ⟨21, _⟩ | ⟨22, _⟩ | ⟨23, _⟩ | ⟨24, _⟩ | ⟨25, _⟩ | ⟨26, _⟩ | ⟨27, _⟩ | ⟨28, _⟩ | ⟨29, _⟩ | ⟨30, _⟩
      | ⟨31, _⟩ =>
        simp only [maskBytes, List.zipWith, number_four]
        simp (config := { decide := true }) only [Nat.reducePow, Nat.reduceDiv, Nat.reduceSub]
        simp only [UInt8.reduceOfNat]
        simp only [ha, hb, hc, hd]
        omega
    exact key ⟨n, h⟩ h0

/-! ### Comparison under a prefix -/

theorem div_split (A B K d : Nat) (hd : d ≤ K) :
    (A * 2 ^ K + B) / 2 ^ d = A * 2 ^ (K - d) + B / 2 ^ d := by
  have : A * 2 ^ K = A * 2 ^ (K - d) * 2 ^ d := by
    rw [Nat.mul_assoc, ← Nat.pow_add]; congr 2; omega
  rw [this, Nat.mul_comm _ (2 ^ d), Nat.mul_add_div (Nat.two_pow_pos d)]

theorem div_small {B K d : Nat} (hd : d ≤ K) (hB : B < 2 ^ K) : B / 2 ^ d < 2 ^ (K - d) := by
  rw [Nat.div_lt_iff_lt_mul (Nat.two_pow_pos d), ← Nat.pow_add]
  rwa [show K - d + d = K by omega]

theorem div_drop {A B K d : Nat} (hd : K ≤ d) (hB : B < 2 ^ K) :
    (A * 2 ^ K + B) / 2 ^ d = A / 2 ^ (d - K) := by
  have : 2 ^ d = 2 ^ K * 2 ^ (d - K) := by rw [← Nat.pow_add]; congr 1; omega
  rw [this, ← Nat.div_div_eq_div_mul]
  congr 1
  rw [Nat.mul_comm, Nat.mul_add_div (Nat.two_pow_pos K), Nat.div_eq_of_lt hB]
  rfl

theorem pow256 (n : Nat) : 256 ^ n = 2 ^ (8 * n) := by
  rw [Nat.pow_mul]

theorem split4 (x : List Byte) (m : Nat) (hx : x.length = 4 * (m + 1)) :
    number x = number (x.take 4) * 2 ^ (32 * m) + number (x.drop 4) ∧ number (x.drop 4) < 2 ^ (32 * m) := by
  have e : (x.drop 4).length = 4 * m := by simp; omega
  constructor
  · conv => lhs; rw [← List.take_append_drop 4 x, number_append, e, pow256]
    rw [show 8 * (4 * m) = 32 * m by omega]
  · have := number_lt (x.drop 4)
    rw [e, pow256] at this
    rwa [show 8 * (4 * m) = 32 * m by omega] at this

/-- The comparison is that of the leading `p` bits. -/
theorem prefixCmp_sign (m : Nat) : ∀ (f : Nat) (x y : List Byte) (p : Nat), x.length = 4 * m → y.length = 4 * m →
    p ≤ 32 * m → m < f →
    ((prefixCmp f x y p).1 < 0 ↔ number x / 2 ^ (32 * m - p) < number y / 2 ^ (32 * m - p)) ∧
    ((prefixCmp f x y p).1 = 0 ↔ number x / 2 ^ (32 * m - p) = number y / 2 ^ (32 * m - p)) ∧
    ((prefixCmp f x y p).1 = 0 → (prefixCmp f x y p).2 = ((p % 32 : Nat) : Int)) := by
  induction m with
  | zero =>
    intro f x y p hx hy hp hf
    have hx' : x = [] := List.length_eq_zero_iff.1 (by omega)
    have hy' : y = [] := List.length_eq_zero_iff.1 (by omega)
    subst hx' hy'
    have : p = 0 := by omega
    subst this
    obtain ⟨f, rfl⟩ : ∃ g, f = g + 1 := ⟨f - 1, by omega⟩
    simp [prefixCmp]
  | succ m ih =>
    intro f x y p hx hy hp hf
    obtain ⟨f, rfl⟩ : ∃ g, f = g + 1 := ⟨f - 1, by omega⟩
    obtain ⟨ex, lx⟩ := split4 x m hx
    obtain ⟨ey, ly⟩ := split4 y m hy
    have tx : (x.take 4).length = 4 := by simp; omega
    have ty : (y.take 4).length = 4 := by simp; omega
    have ms := memcmp_sign (tx.trans ty.symm)
    rw [prefixCmp]
    by_cases hp32 : 32 ≤ p
    · rw [if_pos (by omega)]
      have hd : 32 * (m + 1) - p ≤ 32 * m := by omega
      have sx := div_small hd lx
      have sy := div_small hd ly
      rw [ex, ey, div_split _ _ _ _ hd, div_split _ _ _ _ hd]
      have ih' := ih f (x.drop 4) (y.drop 4) (p - 32) (by simp; omega) (by simp; omega) (by omega) (by omega)
      have e1 : ((p - 32 : Nat) : Int) = (p : Int) - 32 := by omega
      rw [e1, show 32 * m - (p - 32) = 32 * (m + 1) - p by omega] at ih'
      generalize number (x.drop 4) / 2 ^ (32 * (m + 1) - p) = qx at *
      generalize number (y.drop 4) / 2 ^ (32 * (m + 1) - p) = qy at *
      by_cases hc : memcmp (x.take 4) (y.take 4) = 0
      · rw [if_neg (by simpa using hc)]
        rw [ms.2.1 hc]
        obtain ⟨t1, t2, t3⟩ := ih'
        refine ⟨t1.trans (by omega), t2.trans (by omega), fun h => (t3 h).trans ?_⟩
        congr 1; omega
      · rw [if_pos (by simpa using hc)]
        dsimp only
        have hne := fun e => hc (ms.2.2 e)
        rw [ms.1]
        refine ⟨?_, ⟨fun h => absurd h hc, fun h => ?_⟩, fun h => absurd h hc⟩
        · rcases Nat.lt_or_ge (number (x.take 4)) (number (y.take 4)) with hl | hg
          · have := Nat.mul_le_mul_right (2 ^ (32 * m - (32 * (m + 1) - p))) (show number (x.take 4) + 1 ≤ number (y.take 4) by omega)
            rw [Nat.add_mul] at this
            constructor <;> intro _ <;> omega
          · have := Nat.mul_le_mul_right (2 ^ (32 * m - (32 * (m + 1) - p))) (show number (y.take 4) + 1 ≤ number (x.take 4) by omega)
            rw [Nat.add_mul] at this
            constructor <;> intro _ <;> omega
        · exfalso
          rcases Nat.lt_or_ge (number (x.take 4)) (number (y.take 4)) with hl | hg
          · have := Nat.mul_le_mul_right (2 ^ (32 * m - (32 * (m + 1) - p))) (show number (x.take 4) + 1 ≤ number (y.take 4) by omega)
            rw [Nat.add_mul] at this
            omega
          · have := Nat.mul_le_mul_right (2 ^ (32 * m - (32 * (m + 1) - p))) (show number (y.take 4) + 1 ≤ number (x.take 4) by omega)
            rw [Nat.add_mul] at this
            omega
    · rw [if_neg (by omega)]
      have hd : 32 * m ≤ 32 * (m + 1) - p := by omega
      rw [ex, ey, div_drop hd lx, div_drop hd ly, show 32 * (m + 1) - p - 32 * m = 32 - p by omega]
      by_cases h0 : 0 < p
      · rw [if_pos (by omega)]
        have mx := mask_number _ tx p h0 (by omega)
        have my := mask_number _ ty p h0 (by omega)
        have hl : (List.zipWith (· &&& ·) (x.take 4) (maskBytes p)).length = (List.zipWith (· &&& ·) (y.take 4) (maskBytes p)).length := by
          simp [tx, ty, maskBytes]
        have := memcmp_sign hl
        simp only [Int.toNat_natCast]
        rw [mx, my] at this
        have hpos := Nat.two_pow_pos (32 - p)
        refine ⟨this.1.trans ?_, this.2.trans ?_, fun _ => ?_⟩
        · rw [Nat.mul_lt_mul_right hpos]
        · exact Nat.mul_left_inj (by omega)
        · congr 1; omega
      · have : p = 0 := by omega
        subst this
        rw [if_neg (by omega)]
        have bx := number_lt (x.take 4)
        have bY := number_lt (y.take 4)
        rw [tx, pow256] at bx
        rw [ty, pow256] at bY
        rw [Nat.div_eq_of_lt (by simpa using bx), Nat.div_eq_of_lt (by simpa using bY)]
        simp

/-! ### Elements -/

/-- The bytes that are compared. -/
def Elem.val (e : Elem) : Nat := number (e.set.ip.bytes.drop (if e.set.ip.bitLength = 32 then 12 else 0))

/-- An element without zone that stands for a range. -/
structure Is (e : Elem) (r : Range) : Prop where
  len : e.set.ip.bytes.length = 16
  zone : e.set.ip.zone = if r.six then .v6 else .v4
  bits : e.set.bits = r.bits
  le : r.bits ≤ r.width
  base : e.val / 2 ^ (r.width - r.bits) = r.base / 2 ^ (r.width - r.bits)

theorem Is.bitLength {e : Elem} {r : Range} (h : Is e r) : e.set.ip.bitLength = r.width := by
  unfold Addr.bitLength Range.width
  rw [h.zone]
  cases r.six <;> simp

theorem contain_other {n e : Elem} {rn re : Range} (hn : Is n rn) (he : Is e re) (h : rn.six ≠ re.six) :
    contain n e = (rn.width : Int) - re.width ∧ (rn.width : Int) - re.width ≠ 0 := by
  have hv : e.set.ip.zone ≠ .invalid := by rw [he.zone]; cases re.six <;> simp
  have hw : rn.width ≠ re.width := by
    unfold Range.width
    revert h
    cases rn.six <;> cases re.six <;> simp
  have hw' : (rn.width : Int) ≠ re.width := by omega
  unfold contain
  rw [if_neg hv, hn.bitLength, he.bitLength, if_pos hw']
  exact ⟨rfl, by omega⟩

theorem contain_same {n e : Elem} {rn re : Range} (hn : Is n rn) (he : Is e re) (h : rn.six = re.six) :
    (n.val / 2 ^ (re.width - re.bits) < e.val / 2 ^ (re.width - re.bits) → contain n e < 0) ∧
    (e.val / 2 ^ (re.width - re.bits) < n.val / 2 ^ (re.width - re.bits) → 0 < contain n e) ∧
    (n.val / 2 ^ (re.width - re.bits) = e.val / 2 ^ (re.width - re.bits) → rn.bits = rn.width → contain n e = 0) := by
  have hv : e.set.ip.zone ≠ .invalid := by rw [he.zone]; cases re.six <;> simp
  have hz : ∀ z, e.set.ip.zone ≠ .named z := by intro z; rw [he.zone]; cases re.six <;> simp
  have hw : rn.width = re.width := by unfold Range.width; rw [h]
  obtain ⟨m, hm, hlx, hly⟩ : ∃ m, re.width = 32 * m ∧ 
      (n.set.ip.bytes.drop (if e.set.ip.bitLength = 32 then 12 else 0)).length = 4 * m ∧
      (e.set.ip.bytes.drop (if e.set.ip.bitLength = 32 then 12 else 0)).length = 4 * m := by
    rw [he.bitLength]
    unfold Range.width
    simp only [List.length_drop, hn.len, he.len]
    cases re.six
    · exact ⟨1, by simp, by simp, by simp⟩
    · exact ⟨4, by simp, by simp, by simp⟩
  have hm4 : m < 5 := by
    unfold Range.width at hm
    split at hm <;> omega
  have en : n.val = number (n.set.ip.bytes.drop (if e.set.ip.bitLength = 32 then 12 else 0)) := by
    unfold Elem.val; rw [he.bitLength, hn.bitLength, hw]
  have ee : e.val = number (e.set.ip.bytes.drop (if e.set.ip.bitLength = 32 then 12 else 0)) := rfl
  have key := prefixCmp_sign m 5 _ _ re.bits hlx hly (by rw [← hm]; exact he.le) hm4
  rw [← en, ← ee, ← hm] at key
  obtain ⟨k1, k2, k3⟩ := key
  have hc : ∀ (hne : (prefixCmp 5 (n.set.ip.bytes.drop (if e.set.ip.bitLength = 32 then 12 else 0))
        (e.set.ip.bytes.drop (if e.set.ip.bitLength = 32 then 12 else 0)) re.bits).1 ≠ 0),
      contain n e = (prefixCmp 5 (n.set.ip.bytes.drop (if e.set.ip.bitLength = 32 then 12 else 0))
        (e.set.ip.bytes.drop (if e.set.ip.bitLength = 32 then 12 else 0)) re.bits).1 := by
    intro hne
    unfold contain
    rw [if_neg hv, if_neg (by rw [hn.bitLength, he.bitLength, hw]; simp)]
    dsimp only
    rw [he.bits, if_neg hne]
  refine ⟨fun hl => ?_, fun hg => ?_, fun hq hb => ?_⟩
  · have := k1.2 hl
    rw [hc (by omega)]; exact this
  · have h0 := fun hh => (k2.1 hh)
    have h1 := fun hh => (k1.1 hh)
    rw [hc (fun hh => by have := h0 hh; omega)]
    have : ¬ (prefixCmp 5 (n.set.ip.bytes.drop (if e.set.ip.bitLength = 32 then 12 else 0))
        (e.set.ip.bytes.drop (if e.set.ip.bitLength = 32 then 12 else 0)) re.bits).1 < 0 := fun hh => by
      have := h1 hh; omega
    have : ¬ (prefixCmp 5 (n.set.ip.bytes.drop (if e.set.ip.bitLength = 32 then 12 else 0))
        (e.set.ip.bytes.drop (if e.set.ip.bitLength = 32 then 12 else 0)) re.bits).1 = 0 := fun hh => by
      have := h0 hh; omega
    omega
  · have h0 := k2.2 hq
    have h2 := k3 h0
    unfold contain
    rw [if_neg hv, if_neg (by rw [hn.bitLength, he.bitLength, hw]; simp)]
    dsimp only
    rw [he.bits, if_pos h0, h2, hn.bits, hb]
    have : 32 ≤ rn.width := by unfold Range.width; split <;> omega
    rw [if_neg (by omega)]
    cases hh : e.set.ip.zone <;> simp_all

/-- The key of a lookup for address `a`. -/
structure KeyOf (k : Elem) (a : List Byte) (r : Range) : Prop where
  is : Is k r
  full : r.bits = r.width
  len : 8 * a.length = r.width
  val : k.val = number a

theorem contain_key {k e : Elem} {a : List Byte} {rk re : Range} (hk : KeyOf k a rk) (he : Is e re) :
    contain k e = 0 ↔ Covers re a := by
  unfold Covers
  by_cases hs : rk.six = re.six
  · have hw : rk.width = re.width := by unfold Range.width; rw [hs]
    obtain ⟨c1, c2, c3⟩ := contain_same hk.is he hs
    rw [hk.val, he.base] at c1 c2 c3
    constructor
    · intro h0
      refine ⟨hk.len.trans hw, ?_⟩
      rcases Nat.lt_trichotomy (number a / 2 ^ (re.width - re.bits)) (re.base / 2 ^ (re.width - re.bits)) with h | h | h
      · have := c1 h; omega
      · exact h
      · have := c2 h; omega
    · intro h
      exact c3 h.2 hk.full
  · obtain ⟨c1, c2⟩ := contain_other hk.is he hs
    constructor
    · intro h; rw [c1] at h; exact absurd h c2
    · intro h
      have := hk.len.symm.trans h.1
      omega

theorem div_mono_fine {x y a b : Nat} (hab : b ≤ a) (h : x / 2 ^ a < y / 2 ^ a) : x / 2 ^ b < y / 2 ^ b := by
  rcases Nat.lt_or_ge (x / 2 ^ b) (y / 2 ^ b) with h' | h'
  · exact h'
  · have e : ∀ z, z / 2 ^ a = z / 2 ^ b / 2 ^ (a - b) := by
      intro z
      rw [Nat.div_div_eq_div_mul, ← Nat.pow_add]
      congr 2; omega
    rw [e, e] at h
    have := Nat.div_le_div_right (c := 2 ^ (a - b)) h'
    omega

theorem div_eq_coarse {x y a b : Nat} (hab : b ≤ a) (h : x / 2 ^ b = y / 2 ^ b) : x / 2 ^ a = y / 2 ^ a := by
  have e : ∀ z, z / 2 ^ a = z / 2 ^ b / 2 ^ (a - b) := by
    intro z
    rw [Nat.div_div_eq_div_mul, ← Nat.pow_add]
    congr 2; omega
  rw [e, e, h]

/-- An address in `r` and not in `e` is on the same side of `e` as `r` is, unless `e` is inside `r`. -/
theorem contain_side {k r e : Elem} {a : List Byte} {rk rr re : Range} (hk : KeyOf k a rk) (hr : Is r rr)
    (he : Is e re) (hcov : contain k r = 0) (hne : contain k e ≠ 0) (hin : ¬ Inside re rr) :
    contain k e < 0 ↔ contain r e ≤ 0 := by
  have hc := (contain_key hk hr).1 hcov
  have hkr : rk.width = rr.width := hk.len.symm.trans hc.1
  have hsix : rk.six = rr.six := by
    unfold Range.width at hkr
    revert hkr
    cases rk.six <;> cases rr.six <;> simp
  by_cases hs : rr.six = re.six
  · have hw : rr.width = re.width := by unfold Range.width; rw [hs]
    obtain ⟨k1, k2, k3⟩ := contain_same hk.is he (hsix.trans hs)
    obtain ⟨r1, r2, -⟩ := contain_same hr he hs
    have hcv : k.val / 2 ^ (rr.width - rr.bits) = r.val / 2 ^ (rr.width - rr.bits) := by
      rw [hk.val, hc.2, hr.base]
    have hkne : k.val / 2 ^ (re.width - re.bits) ≠ e.val / 2 ^ (re.width - re.bits) :=
      fun h => hne (k3 h hk.full)
    by_cases hb : re.bits ≤ rr.bits
    · have : k.val / 2 ^ (re.width - re.bits) = r.val / 2 ^ (re.width - re.bits) :=
        div_eq_coarse (b := rr.width - rr.bits) (by omega) hcv
      rw [← this] at r1 r2
      rcases Nat.lt_or_gt_of_ne hkne with h | h
      · have := k1 h; have := r1 h; omega
      · have := k2 h; have := r2 h; omega
    · have hb' : re.width - re.bits ≤ rr.width - rr.bits := by omega
      have hne' : e.val / 2 ^ (rr.width - rr.bits) ≠ r.val / 2 ^ (rr.width - rr.bits) := by
        intro h
        apply hin
        refine ⟨hs.symm, by omega, ?_⟩
        rw [← hr.base, ← h]
        exact (div_eq_coarse (b := re.width - re.bits) hb' he.base).symm
      rcases Nat.lt_or_gt_of_ne hne' with h | h
      · have a1 := r2 (div_mono_fine hb' h)
        rw [← hcv] at h
        have a2 := k2 (div_mono_fine hb' h)
        omega
      · have a1 := r1 (div_mono_fine hb' h)
        rw [← hcv] at h
        have a2 := k1 (div_mono_fine hb' h)
        omega
  · obtain ⟨c1, c2⟩ := contain_other hk.is he (by rw [hsix]; exact hs)
    obtain ⟨d1, d2⟩ := contain_other hr he hs
    rw [c1, d1, hkr] at *
    omega

/-- A single address equal to the key compares like the key. -/
theorem contain_side_single {k r e : Elem} {a : List Byte} {rk rr re : Range} (hk : KeyOf k a rk) (hr : Is r rr)
    (he : Is e re) (hcov : contain k r = 0) (hne : contain k e ≠ 0) (hsing : rr.Single) :
    contain k e < 0 ↔ contain r e ≤ 0 := by
  refine contain_side hk hr he hcov hne ?_
  rintro ⟨h1, h2, -⟩
  have := he.le
  have : re.width = rr.width := by unfold Range.width; rw [h1]
  unfold Range.Single at hsing
  omega

theorem key4 (a : List Byte) (h : a.length = 4) : KeyOf ⟨⟨from4 a, 32⟩, 0, none⟩ a ⟨false, number a, 32⟩ := by
  have hv : Elem.val ⟨⟨from4 a, 32⟩, 0, none⟩ = number a := by
    simp [Elem.val, from4, Addr.bitLength, prefix4]
  exact ⟨⟨by simp [from4, prefix4, h], rfl, rfl, by simp [Range.width], by rw [hv]⟩, rfl, by simp [Range.width, h], hv⟩

theorem key16 (a : List Byte) (h : a.length = 16) : KeyOf ⟨⟨from6 a, 128⟩, 0, none⟩ a ⟨true, number a, 128⟩ := by
  have hv : Elem.val ⟨⟨from6 a, 128⟩, 0, none⟩ = number a := by
    simp [Elem.val, from6, Addr.bitLength]
  exact ⟨⟨by simp [from6, h], rfl, rfl, by simp [Range.width], by rw [hv]⟩, rfl, by simp [Range.width, h], hv⟩

/-! ### Reading entries -/

theorem keepHead_two (l : Nat) (hl : l < 16) (x y : Byte) (r : List Byte) :
    ∃ x' y', keepHead l (x :: y :: r) = x' :: y' :: r ∧ (8 ≤ l → x' = x) := by
  rw [keepHead]
  split
  · exact ⟨x, y, rfl, fun _ => rfl⟩
  · split
    · rw [keepHead]
      split
      · exact ⟨x, y, rfl, fun _ => rfl⟩
      · rw [if_neg (by omega)]
        exact ⟨x, _, rfl, fun _ => rfl⟩
    · exact ⟨_, y, rfl, fun _ => by omega⟩

theorem v4_chars {s : List Byte} {a b c d : Nat} (h : V4Text s a b c d) :
    (∀ x ∈ s, x = 46 ∨ decVal x ≠ none) ∧ (46 : Byte) ∈ s := by
  have hn : ∀ {t : List Byte} {n : Nat}, DecNum t n → ∀ x ∈ t, decVal x ≠ none := by
    intro t n ht
    induction ht with
    | one hd => intro x hx; simp at hx; subst hx; rw [decVal_of hd]; simp
    | more _ hd ih =>
      intro x hx
      simp only [List.mem_append, List.mem_singleton] at hx
      rcases hx with hx | rfl
      · exact ih x hx
      · rw [decVal_of hd]; simp
  cases h with
  | mk h1 h2 h3 h4 =>
    refine ⟨?_, by simp⟩
    intro x hx
    simp only [List.mem_append, List.mem_cons] at hx
    rcases hx with hx | rfl | hx | rfl | hx | rfl | hx
    · exact .inr (hn h1 x hx)
    · exact .inl rfl
    · exact .inr (hn h2 x hx)
    · exact .inl rfl
    · exact .inr (hn h3 x hx)
    · exact .inl rfl
    · exact .inr (hn h4 x hx)

theorem join_chars {ts : List (List Byte)} {vs : List Nat} (h : Groups ts vs) :
    ∀ x ∈ join ts, x = 58 ∨ hexVal x ≠ none := by
  induction h with
  | nil => simp [join]
  | @cons t v ts vs g gs ih =>
    cases ts with
    | nil => intro x hx; exact .inr ((group_chars g.1).2 x hx)
    | cons t' ts' =>
      intro x hx
      simp only [join, List.mem_append, List.mem_cons] at hx
      rcases hx with hx | rfl | hx
      · exact .inr ((group_chars g.1).2 x hx)
      · exact .inl rfl
      · exact ih x hx

theorem v6_chars {s : List Byte} {vs : List Nat} (h : V6Text s vs) :
    (∀ x ∈ s, x = 58 ∨ hexVal x ≠ none) ∧ (58 : Byte) ∈ s := by
  cases h with
  | @full ts vs h h8 =>
    refine ⟨join_chars h, ?_⟩
    cases h with
    | nil => simp at h8
    | @cons t v ts vs g gs =>
      cases gs with
      | nil => simp at h8
      | cons => simp [join]
  | @short ts us vs ws k h h' hk h8 =>
    refine ⟨?_, by simp⟩
    intro x hx
    simp only [List.mem_append, List.mem_cons] at hx
    rcases hx with hx | rfl | rfl | hx
    · exact join_chars h x hx
    · exact .inl rfl
    · exact .inl rfl
    · exact join_chars h' x hx

theorem find_first {s : List Byte} {p : Byte → Bool} {x : Byte} (hx : x ∈ s) (hp : p x = true)
    (h : ∀ y ∈ s, p y = true → y = x) : s.find? p = some x := by
  cases hf : s.find? p with
  | none => exact absurd hp (List.find?_eq_none.1 hf x hx)
  | some y => rw [h y (List.mem_of_find?_eq_some hf) (List.find?_some hf)]

theorem dec_not : ∀ x : Byte, x = 46 ∨ decVal x ≠ none → x ≠ 47 ∧ x ≠ 58 := forall_byte _ (by decide +kernel)
theorem hex_not : ∀ x : Byte, x = 58 ∨ hexVal x ≠ none → x ≠ 47 ∧ x ≠ 46 ∧ x ≠ 37 := forall_byte _ (by decide +kernel)

theorem dropWhile_all {s : List Byte} {p : Byte → Bool} (h : ∀ x ∈ s, p x = true) : s.dropWhile p = [] := by
  have := List.dropWhile_append_of_pos (l₂ := []) h
  simpa using this

theorem takeWhile_slash (s t : List Byte) (h : ∀ x ∈ s, x ≠ 47) :
    (s ++ 47 :: t).takeWhile (· != 47) = s ∧ ((s ++ 47 :: t).dropWhile (· != 47)).drop 1 = t ∧
    s.takeWhile (· != 47) = s ∧ (s.dropWhile (· != 47)).drop 1 = [] := by
  have h' : ∀ x ∈ s, (x != 47) = true := by intro x hx; simp [h x hx]
  refine ⟨?_, ?_, ?_, ?_⟩
  · rw [List.takeWhile_append_of_pos h']; simp
  · rw [List.dropWhile_append_of_pos h']; simp
  · have := List.takeWhile_append_of_pos (l₂ := []) h'
    simpa using this
  · have := List.dropWhile_append_of_pos (l₂ := []) h'
    simp only [List.append_nil] at this
    rw [this]; rfl

theorem parseAddr_v4 {s : List Byte} {a b c d : Nat} (h : V4Text s a b c d) (ha : a ≤ 255) (hb : b ≤ 255)
    (hc : c ≤ 255) (hd : d ≤ 255) :
    parseAddr s = .ok ⟨prefix4 ++ [UInt8.ofNat a, UInt8.ofNat b, UInt8.ofNat c, UInt8.ofNat d], .v4⟩ := by
  obtain ⟨h1, h2⟩ := v4_chars h
  have hf : s.find? (fun c => c == 46 || c == 58) = some 46 := by
    refine find_first h2 rfl ?_
    intro y hy hp
    have := (dec_not y (h1 y hy)).2
    simpa [this] using hp
  have hv := v4_scan h [] (by omega) (by omega) (by omega) (by omega) (by simp)
  rw [List.append_nil] at hv
  unfold parseAddr
  rw [hf]
  simp [hv]

theorem parseAddr_v6 {s : List Byte} {vs : List Nat} (h : V6Text s vs) (hs : s ≠ [58, 58]) :
    ∃ a, parseAddr s = .ok ⟨a, .v6⟩ ∧ V6Bytes a vs := by
  obtain ⟨h1, h2⟩ := v6_chars h
  have hf : s.find? (fun c => c == 46 || c == 58) = some 58 := by
    refine find_first h2 rfl ?_
    intro y hy hp
    have := (hex_not y (h1 y hy)).2.1
    simpa [this] using hp
  obtain ⟨a, ha, hB⟩ := v6_accepts_partial h hs
  refine ⟨a, ?_, hB⟩
  have hz : (s.dropWhile (· != 58)).dropWhile (· != 37) = [] := by
    refine dropWhile_all ?_
    intro x hx
    have := (hex_not x (h1 x (List.dropWhile_sublist _ |>.subset hx))).2.2
    simp [this]
  unfold parseAddr
  rw [hf]
  simp [ha, hz]

theorem v6_number {a : List Byte} {vs : List Nat} (h : V6Bytes a vs) :
    number a = vs.foldl (fun n v => n * 65536 + v) 0 := by
  obtain ⟨h1, h2, h3⟩ := h
  have key : ∀ (vs : List Nat) (a : List Byte) (n : Nat), a.length = 2 * vs.length →
      (∀ i, i < vs.length → (a.getD (2 * i) 0).toNat * 256 + (a.getD (2 * i + 1) 0).toNat = vs.getD i 0) →
      a.foldl (fun n b => n * 256 + b.toNat) n = vs.foldl (fun n v => n * 65536 + v) n := by
    intro vs
    induction vs with
    | nil => intro a n hl _; simp at hl; subst hl; rfl
    | cons v vs ih =>
      intro a n hl h
      obtain ⟨x, y, a', rfl⟩ : ∃ x y a', a = x :: y :: a' := by
        cases a with
        | nil => simp at hl
        | cons x a =>
          cases a with
          | nil => simp at hl; omega
          | cons y a => exact ⟨x, y, a, rfl⟩
      have h0 := h 0 (by simp)
      simp at h0
      simp only [List.foldl_cons]
      have e : (n * 256 + x.toNat) * 256 + y.toNat = n * 65536 + v := by
        clear h ih hl h1 h2 h3
        rw [Nat.add_mul, Nat.mul_assoc, Nat.add_assoc, h0]
      rw [e]
      refine ih a' _ (by simp at hl; omega) (fun i hi => ?_)
      have := h (i + 1) (by simp; omega)
      rw [show 2 * (i + 1) = 2 * i + 1 + 1 by omega] at this
      simpa using this
  exact key vs a 0 (by omega) (by rw [h2]; exact h3)

theorem decNum_ne {t : List Byte} {n : Nat} (h : DecNum t n) : t ≠ [] := by
  cases h <;> simp

theorem atoi_num {t : List Byte} {n : Nat} (h : DecNum t n) (hn : n < 2147483648) : atoi t = some (n : Int) := by
  have := scanDec_num (rest := []) h hn (by simp)
  rw [List.append_nil] at this
  simp [atoi, this]

theorem parse_text {s : List Byte} {r : Range} (h : RangeText s r) :
    ∃ st, parseSet (s.takeWhile (· != 47)) ((s.dropWhile (· != 47)).drop 1) = .ok st ∧
      ∀ ty d, Is ⟨st, ty, d⟩ r := by
  have v4val : ∀ a b c d : Nat, a ≤ 255 → b ≤ 255 → c ≤ 255 → d ≤ 255 →
      number [UInt8.ofNat a, UInt8.ofNat b, UInt8.ofNat c, UInt8.ofNat d] = ((a * 256 + b) * 256 + c) * 256 + d := by
    intro a b c d ha hb hc hd
    simp [number]; omega
  cases h with
  | @v4 _ a b c d h ha hb hc hd =>
    obtain ⟨-, -, e1, e2⟩ := takeWhile_slash s [] (fun x hx => (dec_not x ((v4_chars h).1 x hx)).1)
    rw [e1, e2]
    refine ⟨_, by unfold parseSet; rw [parseAddr_v4 h ha hb hc hd]; rfl, fun ty d' => ?_⟩
    refine ⟨by simp [prefix4], rfl, rfl, by simp [Range.width], ?_⟩
    have hv : Elem.val ⟨⟨⟨prefix4 ++ [UInt8.ofNat a, UInt8.ofNat b, UInt8.ofNat c, UInt8.ofNat d], .v4⟩, 32⟩, ty, d'⟩ =
        ((a * 256 + b) * 256 + c) * 256 + d := by
      rw [← v4val a b c d ha hb hc hd]
      simp [Elem.val, Addr.bitLength, prefix4]
    rw [← hv]; rfl
  | @v4net s t a b c d n h ha hb hc hd ht hn =>
    obtain ⟨e1, e2, -, -⟩ := takeWhile_slash s t (fun x hx => (dec_not x ((v4_chars h).1 x hx)).1)
    rw [e1, e2]
    have hp : parseSet s t = .ok ⟨⟨if (n : Int) < 16 then keepHead n (prefix4 ++ [UInt8.ofNat a, UInt8.ofNat b, UInt8.ofNat c, UInt8.ofNat d])
        else prefix4 ++ [UInt8.ofNat a, UInt8.ofNat b, UInt8.ofNat c, UInt8.ofNat d], .v4⟩, n⟩ := by
      unfold parseSet
      rw [parseAddr_v4 h ha hb hc hd]
      dsimp only
      rw [if_neg (decNum_ne ht), atoi_num ht (by omega)]
      dsimp only
      have : (if (n : Int) < 0 then (-1 : Int) else if (n : Int) > Addr.bitLength ⟨prefix4 ++ [UInt8.ofNat a, UInt8.ofNat b, UInt8.ofNat c, UInt8.ofNat d], .v4⟩
          then Addr.bitLength ⟨prefix4 ++ [UInt8.ofNat a, UInt8.ofNat b, UInt8.ofNat c, UInt8.ofNat d], .v4⟩ else (n : Int)) = n := by
        rw [if_neg (by omega), if_neg (by simp [Addr.bitLength]; omega)]
      rw [this]
      simp [Addr.is6]
    rw [hp]
    refine ⟨_, rfl, fun ty d' => ?_⟩
    obtain ⟨x', y', hk, -⟩ : ∃ x' y', (if (n : Int) < 16 then keepHead n (prefix4 ++ [UInt8.ofNat a, UInt8.ofNat b, UInt8.ofNat c, UInt8.ofNat d])
        else prefix4 ++ [UInt8.ofNat a, UInt8.ofNat b, UInt8.ofNat c, UInt8.ofNat d]) =
          x' :: y' :: ([0, 0, 0, 0, 0, 0, 0, 0, 255, 255] ++ [UInt8.ofNat a, UInt8.ofNat b, UInt8.ofNat c, UInt8.ofNat d]) ∧ True := by
      split
      · obtain ⟨x', y', hk, -⟩ := keepHead_two n (by omega) 0 0 ([0, 0, 0, 0, 0, 0, 0, 0, 255, 255] ++ [UInt8.ofNat a, UInt8.ofNat b, UInt8.ofNat c, UInt8.ofNat d])
        exact ⟨x', y', hk, trivial⟩
      · exact ⟨0, 0, rfl, trivial⟩
    refine ⟨by dsimp only; rw [hk]; simp, rfl, rfl, by simpa [Range.width] using hn, ?_⟩
    rw [← v4val a b c d ha hb hc hd]
    simp only [Elem.val, Addr.bitLength, if_true, hk]
    rfl
  | @v6 _ vs h hs =>
    obtain ⟨-, -, e1, e2⟩ := takeWhile_slash s [] (fun x hx => (hex_not x ((v6_chars h).1 x hx)).1)
    obtain ⟨a, ha, hB⟩ := parseAddr_v6 h hs
    rw [e1, e2]
    refine ⟨⟨⟨a, .v6⟩, 128⟩, by unfold parseSet; rw [ha]; rfl, fun ty d' => ?_⟩
    refine ⟨hB.1, rfl, rfl, by simp [Range.width], ?_⟩
    rw [← v6_number hB]
    simp [Elem.val, Addr.bitLength]
  | @v6net s t vs n h hs ht hn =>
    obtain ⟨e1, e2, -, -⟩ := takeWhile_slash s t (fun x hx => (hex_not x ((v6_chars h).1 x hx)).1)
    obtain ⟨a, ha, hB⟩ := parseAddr_v6 h hs
    rw [e1, e2]
    have hp : parseSet s t = .ok ⟨⟨if (n : Int) + 10 < 16 then keepHead (n + 10) a else a, .v6⟩, n⟩ := by
      unfold parseSet
      rw [ha]
      dsimp only
      rw [if_neg (decNum_ne ht), atoi_num ht (by omega)]
      dsimp only
      have : (if (n : Int) < 0 then (-1 : Int) else if (n : Int) > Addr.bitLength ⟨a, .v6⟩
          then Addr.bitLength ⟨a, .v6⟩ else (n : Int)) = n := by
        rw [if_neg (by omega), if_neg (by simp [Addr.bitLength]; omega)]
      rw [this]
      have e : ((n : Int) + 10).toNat = n + 10 := by omega
      simp [Addr.is6, e]
    rw [hp]
    refine ⟨_, rfl, fun ty d' => ?_⟩
    obtain ⟨x, y, rest, rfl⟩ : ∃ x y rest, a = x :: y :: rest := by
      match a, hB.1 with
      | x :: y :: rest, _ => exact ⟨x, y, rest, rfl⟩
    have hl : rest.length = 14 := by have := hB.1; simpa using this
    rw [← v6_number hB]
    by_cases h6 : (n : Int) + 10 < 16
    · rw [if_pos h6]
      obtain ⟨x', y', hk, hx⟩ := keepHead_two (n + 10) (by omega) x y rest
      rw [hx (by omega)] at hk
      rw [hk]
      refine ⟨by simp [hl], rfl, rfl, by simpa [Range.width] using hn, ?_⟩
      have aux : ∀ z : Byte, number (x :: z :: rest) / 2 ^ (128 - n) = x.toNat / 2 ^ (8 - n) := by
        intro z
        have hlt := number_lt (z :: rest)
        rw [number_cons, pow256]
        rw [pow256] at hlt
        simp only [List.length_cons, hl] at hlt ⊢
        rw [div_drop (by omega) hlt]
        rw [show 128 - n - 8 * (14 + 1) = 8 - n by omega]
      simp only [Elem.val, Addr.bitLength, Range.width]
      simp [aux]
    · rw [if_neg h6]
      refine ⟨by simp [hl], rfl, rfl, by simpa [Range.width] using hn, ?_⟩
      simp [Elem.val, Addr.bitLength]

theorem single_iff {st : Set} {r : Range} {ty : Nat} {d : Option (List Byte)} (h : Is ⟨st, ty, d⟩ r) :
    st.single = true ↔ r.Single := by
  have h1 := h.bits
  have h2 := h.bitLength
  dsimp only at h1 h2
  unfold Set.single Range.Single
  rw [decide_eq_true_iff, h1, h2]
  have : 0 < r.width := by unfold Range.width; split <;> omega
  omega

end Verif.IpChunk
