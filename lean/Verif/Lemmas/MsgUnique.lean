import Verif.Lemmas.Parser
/-! A well-formed message is determined by its bytes. -/

namespace Verif.Message
open Parser

theorem u16_split {a b : Nat} {x y : List Byte} (ha : a < 65536) (hb : b < 65536) (h : u16 a ++ x = u16 b ++ y) : a = b ∧ x = y := by
  simp only [u16, List.cons_append, List.nil_append, List.cons.injEq] at h
  obtain ⟨h1, h2, h3⟩ := h
  have e1 := congrArg UInt8.toNat h1
  have e2 := congrArg UInt8.toNat h2
  simp only [UInt8.toNat_ofNat'] at e1 e2
  exact ⟨by omega, h3⟩

theorem u32_split {a b : Nat} {x y : List Byte} (ha : a < 4294967296) (hb : b < 4294967296) (h : u32 a ++ x = u32 b ++ y) : a = b ∧ x = y := by
  simp only [u32, u16, List.cons_append, List.nil_append, List.cons.injEq] at h
  obtain ⟨h1, h2, h3, h4, h5⟩ := h
  have e1 := congrArg UInt8.toNat h1
  have e2 := congrArg UInt8.toNat h2
  have e3 := congrArg UInt8.toNat h3
  have e4 := congrArg UInt8.toNat h4
  simp only [UInt8.toNat_ofNat'] at e1 e2 e3 e4
  exact ⟨by omega, h5⟩

theorem name_split {n m x y : List Byte} (hn : WireName n) (hm : WireName m) (h : n ++ x = m ++ y) : n = m ∧ x = y := by
  have h1 := skip_wireName hn x
  rw [h, skip_wireName hm y] at h1
  exact List.append_inj h (by simpa using h1.symm)

theorem question_split {q p : Question} {x y : List Byte} (hq : q.Valid) (hp : p.Valid) (h : q.bytes ++ x = p.bytes ++ y) : q = p ∧ x = y := by
  simp only [Question.bytes, List.append_assoc] at h
  obtain ⟨h1, h⟩ := name_split hq.1 hp.1 h
  obtain ⟨h2, h⟩ := u16_split hq.2.2.1 hp.2.2.1 h
  obtain ⟨h3, hz⟩ := u16_split hq.2.2.2.2 hp.2.2.2.2 h
  cases q; cases p
  exact ⟨by simp_all, hz⟩

theorem rr_split {q p : RR} {x y : List Byte} (hq : q.Valid) (hp : p.Valid) (h : q.bytes ++ x = p.bytes ++ y) : q = p ∧ x = y := by
  simp only [RR.bytes, List.append_assoc] at h
  obtain ⟨h1, h⟩ := name_split hq.1 hp.1 h
  obtain ⟨h2, h⟩ := u16_split hq.2.2.1 hp.2.2.1 h
  obtain ⟨h3, h⟩ := u16_split hq.2.2.2.2.1 hp.2.2.2.2.1 h
  obtain ⟨h4, h⟩ := u32_split hq.2.2.2.2.2.1 hp.2.2.2.2.2.1 h
  obtain ⟨h5, h⟩ := u16_split hq.2.2.2.2.2.2 hp.2.2.2.2.2.2 h
  obtain ⟨h6, hz⟩ := List.append_inj h h5
  cases q; cases p
  exact ⟨by simp_all, hz⟩

theorem questions_split (l m : List Question) {x y : List Byte} (hl : ∀ q ∈ l, q.Valid) (hm : ∀ q ∈ m, q.Valid) (hn : l.length = m.length)
    (h : qBytes l ++ x = qBytes m ++ y) : l = m ∧ x = y := by
  induction l generalizing m with
  | nil => cases m with
    | nil => exact ⟨rfl, h⟩
    | cons => simp at hn
  | cons q l ih => cases m with
    | nil => simp at hn
    | cons p m =>
      simp only [qBytes, List.map_cons, List.flatten_cons, List.append_assoc] at h
      obtain ⟨h1, h⟩ := question_split (hl q (by simp)) (hm p (by simp)) h
      obtain ⟨h2, h⟩ := ih m (fun a ha => hl a (by simp [ha])) (fun a ha => hm a (by simp [ha])) (by simpa using hn) h
      exact ⟨by rw [h1, h2], h⟩

theorem rrs_split (l m : List RR) {x y : List Byte} (hl : ∀ q ∈ l, q.Valid) (hm : ∀ q ∈ m, q.Valid) (hn : l.length = m.length)
    (h : rrBytes l ++ x = rrBytes m ++ y) : l = m ∧ x = y := by
  induction l generalizing m with
  | nil => cases m with
    | nil => exact ⟨rfl, h⟩
    | cons => simp at hn
  | cons q l ih => cases m with
    | nil => simp at hn
    | cons p m =>
      simp only [rrBytes, List.map_cons, List.flatten_cons, List.append_assoc] at h
      obtain ⟨h1, h⟩ := rr_split (hl q (by simp)) (hm p (by simp)) h
      obtain ⟨h2, h⟩ := ih m (fun a ha => hl a (by simp [ha])) (fun a ha => hm a (by simp [ha])) (by simpa using hn) h
      exact ⟨by rw [h1, h2], h⟩

/-- A well-formed message, followed by anything, is determined by the bytes. -/
theorem bytes_split {m k : Msg} {x y : List Byte} (hm : m.Valid) (hk : k.Valid) (h : m.bytes ++ x = k.bytes ++ y) : m = k ∧ x = y := by
  simp only [Msg.bytes, Msg.header, Msg.body, List.append_assoc] at h
  obtain ⟨h1, h⟩ := List.append_inj h (by rw [hm.head, hk.head])
  obtain ⟨c1, h⟩ := u16_split hm.qd16 hk.qd16 h
  obtain ⟨c2, h⟩ := u16_split hm.an16 hk.an16 h
  obtain ⟨c3, h⟩ := u16_split hm.ns16 hk.ns16 h
  obtain ⟨c4, h⟩ := u16_split hm.ar16 hk.ar16 h
  obtain ⟨h2, h⟩ := questions_split _ _ hm.qs hk.qs c1 h
  obtain ⟨h3, h⟩ := rrs_split _ _ hm.an hk.an c2 h
  obtain ⟨h4, h⟩ := rrs_split _ _ hm.ns hk.ns c3 h
  obtain ⟨h5, hz⟩ := rrs_split _ _ hm.ar hk.ar c4 h
  cases m; cases k
  exact ⟨by simp_all, hz⟩

/-- Two well-formed messages with the same bytes are the same. -/
theorem bytes_inj {m k : Msg} (hm : m.Valid) (hk : k.Valid) (h : m.bytes = k.bytes) : m = k :=
  (bytes_split (x := []) (y := []) hm hk (by rw [h])).1

end Verif.Message
