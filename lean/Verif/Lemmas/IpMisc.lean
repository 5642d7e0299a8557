import Verif.Lemmas.ParserWalk
import Verif.Lemmas.IpChunk
import Verif.Spec.IpMisc
import Verif.Model.IpMisc
/-! Lemmas for `Props/IpMisc.lean`. -/

namespace Verif.IpMisc
open Message Parser

/-- The part of a record in front of its data. -/
def rrHead (r : RR) (k : Nat) : List Byte :=
  r.name ++ (u16 r.type ++ (u16 r.klass ++ (u32 r.ttl ++ u16 k)))

theorem rr_bytes (r : RR) : r.bytes = rrHead r r.rdata.length ++ r.rdata := by
  simp [RR.bytes, rrHead]

theorem rrHead_length (r : RR) (k : Nat) : (rrHead r k).length = r.name.length + 10 := by
  simp [rrHead, u16_length, u32_length]

theorem rrBytes_cons (r : RR) (l : List RR) : rrBytes (r :: l) = r.bytes ++ rrBytes l := by
  simp [rrBytes]

/-- Like `r`, with other data of the same length. -/
structure Like (r r' : RR) : Prop where
  name : r'.name = r.name
  type : r'.type = r.type
  klass : r'.klass = r.klass
  ttl : r'.ttl = r.ttl
  len : r'.rdata.length = r.rdata.length

theorem Like.valid {r r' : RR} (h : Like r r') (hr : r.Valid) : r'.Valid := by
  unfold RR.Valid at *
  rw [h.name, h.type, h.klass, h.ttl, h.len]; exact hr

theorem Like.bytes_length {r r' : RR} (h : Like r r') : r'.bytes.length = r.bytes.length := by
  simp [rr_bytes, rrHead_length, h.name, h.len]

theorem Like.itr {r r' : RR} (h : Like r r') (pu : Purpose) (d p n : Nat) :
    (rItem pu r').itr d p n = (rItem pu r).itr d p n := by
  simp only [Item.itr, rItem, h.type, h.klass, h.len]
  rfl

theorem replaced_like {L : Policy} (hl : Ready L) (r : RR) : Like r (replaced L r) := by
  unfold replaced
  split
  · split
    · rename_i d hf
      obtain ⟨x, hx, hle⟩ := hl _ _ hf
      cases hx
      exact ⟨rfl, rfl, rfl, rfl, by simp; omega⟩
    · exact ⟨rfl, rfl, rfl, rfl, rfl⟩
  · exact ⟨rfl, rfl, rfl, rfl, rfl⟩

/-- What the loop does with the current answer. -/
theorem loop_step {lists : IpChunk.Chunk} (hl : Ready (IpChunk.find lists)) {len : Nat} {c : Counts} {b pre rest : List Byte}
    {r : RR} {it : Itr} {n fuel : Nat} (hr : r.Valid) (hs : Sane r) (hb : b = pre ++ (r.bytes ++ rest))
    (hnext : next b len c it = some ((rItem .answer r).itr it.dataLen pre.length n, some pre.length)) :
    (Blocked (IpChunk.find lists) r → loop lists len c (fuel + 1) b it = some (.filtered, b)) ∧
    (¬ Blocked (IpChunk.find lists) r → loop lists len c (fuel + 1) b it =
      loop lists len c fuel (pre ++ ((replaced (IpChunk.find lists) r).bytes ++ rest)) ((rItem .answer r).itr it.dataLen pre.length n)) := by
  have hsk : rowData b pre.length = some (pre.length + r.name.length + 10) := by
    unfold rowData
    rw [skipAt_eq (nb := r.name) (pre := pre) (post := u16 r.type ++ (u16 r.klass ++ (u32 r.ttl ++ (u16 r.rdata.length ++ r.rdata))) ++ rest)
      (by simp [hb, RR.bytes]) rfl hr.1]
    rfl
  have hfields : ((rItem .answer r).itr it.dataLen pre.length n).purpose = .answer ∧
      ((rItem .answer r).itr it.dataLen pre.length n).klass = r.klass ∧
      ((rItem .answer r).itr it.dataLen pre.length n).type = r.type := ⟨rfl, rfl, rfl⟩
  have hdata : (b.drop (pre.length + r.name.length + 10)).take r.rdata.length = r.rdata ∧
      pre.length + r.name.length + 10 + r.rdata.length ≤ b.length := by
    have e : b = (pre ++ rrHead r r.rdata.length) ++ (r.rdata ++ rest) := by rw [hb, rr_bytes]; simp
    have el : (pre ++ rrHead r r.rdata.length).length = pre.length + r.name.length + 10 := by
      simp [rrHead_length]; omega
    constructor
    · rw [e, ← el, List.drop_left]; simp
    · rw [e, ← el]; simp; omega
  have hput : ∀ d : List Byte, d.length = r.rdata.length →
      put b (pre.length + r.name.length + 10) d = pre ++ (({ r with rdata := d } : RR).bytes ++ rest) := by
    intro d hd
    have e : b = (pre ++ rrHead r r.rdata.length) ++ (r.rdata ++ rest) := by rw [hb, rr_bytes]; simp
    have el : (pre ++ rrHead r r.rdata.length).length = pre.length + r.name.length + 10 := by
      simp [rrHead_length]; omega
    unfold put
    rw [e, ← el, List.take_left, List.drop_append, List.drop_eq_nil_of_le (by omega)]
    rw [show (pre ++ rrHead r r.rdata.length).length + d.length - (pre ++ rrHead r r.rdata.length).length = r.rdata.length by omega,
      List.drop_left, rr_bytes]
    simp [rrHead, hd]
  rw [loop, hnext]
  dsimp only
  rw [if_neg (by simp [hfields.1]), hfields.2.1, hfields.2.2]
  by_cases hk : r.klass = 1
  · rw [if_neg (by simpa using hk)]
    by_cases ht : r.type = 1 ∨ r.type = 28
    · have hlen : (if r.type = 1 then some 4 else if r.type = 28 then some 16 else none) = some r.rdata.length := by
        rcases ht with ht | ht
        · rw [if_pos ht, (hs hk).1 ht]
        · rw [if_neg (by omega), if_pos ht, (hs hk).2 ht]
      have ha : IsAddr r := by
        refine ⟨hk, ?_⟩
        rcases ht with ht | ht
        · exact .inl ⟨ht, (hs hk).1 ht⟩
        · exact .inr ⟨ht, (hs hk).2 ht⟩
      rw [hlen]
      dsimp only
      rw [hsk]
      dsimp only
      rw [if_pos hdata.2, hdata.1]
      cases hf : IpChunk.find lists r.rdata with
      | none =>
        refine ⟨fun hB => ?_, fun _ => ?_⟩
        · obtain ⟨d, hd⟩ := hB.2; rw [hf] at hd; simp at hd
        · have : replaced (IpChunk.find lists) r = r := by unfold replaced; rw [if_pos ha, hf]
          rw [this, ← hb]
      | some td =>
        obtain ⟨ty, data⟩ := td
        dsimp only
        by_cases h1 : ty = typeBlock
        · rw [if_pos h1]
          refine ⟨fun _ => rfl, fun hB => absurd ⟨ha, data, ?_⟩ hB⟩
          rw [hf, h1]; rfl
        · rw [if_neg h1]
          refine ⟨fun hB => ?_, fun _ => ?_⟩
          · obtain ⟨d, hd⟩ := hB.2
            rw [hf] at hd
            simp at hd
            exact absurd hd.1 h1
          · by_cases h2 : ty = typeSubstitute
            · rw [if_pos h2]
              have h2' : ty = 2 := h2
              subst h2'
              obtain ⟨x, hx, hle⟩ := hl _ _ hf
              subst hx
              dsimp only
              rw [if_pos hle, hput _ (by simp; omega)]
              congr 3
              unfold replaced
              rw [if_pos ha, hf]
              rfl
            · rw [if_neg h2]
              have : replaced (IpChunk.find lists) r = r := by
                unfold replaced
                rw [if_pos ha, hf]
                split
                · rename_i hh
                  simp at hh
                  exact absurd hh.1 h2
                · rfl
              rw [this, ← hb]
    · have hna : ¬ IsAddr r := by
        rintro ⟨-, h | h⟩
        · exact ht (.inl h.1)
        · exact ht (.inr h.1)
      rw [if_neg (fun h => ht (.inl h)), if_neg (fun h => ht (.inr h))]
      refine ⟨fun hB => absurd hB.1 hna, fun _ => ?_⟩
      have : replaced (IpChunk.find lists) r = r := by unfold replaced; rw [if_neg hna]
      rw [this, ← hb]
  · have hna : ¬ IsAddr r := fun h => hk h.1
    rw [if_pos (by simpa using hk)]
    refine ⟨fun hB => absurd hB.1 hna, fun _ => ?_⟩
    have : replaced (IpChunk.find lists) r = r := by unfold replaced; rw [if_neg hna]
    rw [this, ← hb]

/-- The loop over the answers `l` behind `pre`; behind them comes either a record of another section or
nothing. -/
theorem loop_answers {lists : IpChunk.Chunk} (hl : Ready (IpChunk.find lists)) {len : Nat} {c : Counts} (tail : List Byte)
    (l : List RR) : ∀ (pre : List Byte) (it : Itr) (n fuel : Nat), (∀ r ∈ l, r.Valid ∧ Sane r) →
    pre.length + (rrBytes l).length ≤ len →
    (∀ i, i < l.length → determinePurpose c (n + i) = .answer) → n + l.length ≤ c.all + 1 →
    (n + l.length ≤ c.all → ∃ y : Item, ∃ rest, y.Ok ∧ tail = y.bytes ++ rest ∧ y.pu ≠ .answer ∧
      determinePurpose c (n + l.length) = y.pu) →
    l.length < fuel → (∃ p, it.pos = some p) → it.num + 1 = n →
    (n ≤ c.all → ∀ b', b'.take pre.length = pre → next b' len c it = look b' len c it pre.length n) →
    ((∃ r ∈ l, Blocked (IpChunk.find lists) r) →
      ∃ b', loop lists len c fuel (pre ++ (rrBytes l ++ tail)) it = some (.filtered, b')) ∧
    ((∀ r ∈ l, ¬ Blocked (IpChunk.find lists) r) →
      loop lists len c fuel (pre ++ (rrBytes l ++ tail)) it =
        some (.nothing, pre ++ (rrBytes (l.map (replaced (IpChunk.find lists))) ++ tail))) := by
  induction l with
  | nil =>
    intro pre it n fuel _ hlen _ hn htail hf hpos hnum hnext
    obtain ⟨f, rfl⟩ : ∃ g, fuel = g + 1 := ⟨fuel - 1, by omega⟩
    refine ⟨by simp, fun _ => ?_⟩
    simp only [List.length_nil, Nat.add_zero] at hn htail
    rw [loop]
    by_cases hle : n ≤ c.all
    · obtain ⟨y, rest, hy, ht, hpu, hd⟩ := htail hle
      have hlook := look_item (b := pre ++ (y.bytes ++ rest)) (pre := pre) (post := rest) (len := len) (it := it) hy rfl
        (by omega) hle hd
      have e : pre ++ (rrBytes ([] : List RR) ++ tail) = pre ++ (y.bytes ++ rest) := by simp [rrBytes, ht]
      rw [e, hnext hle _ (by simp), hlook]
      dsimp only
      have : (y.itr it.dataLen pre.length n).purpose = y.pu := rfl
      rw [this, if_pos hpu]
      simp [rrBytes, ht]
    · obtain ⟨p, hp⟩ := hpos
      rw [next_end hp (by omega)]
      simp
  | cons r l ih =>
    intro pre it n fuel hv hlen hpu hn htail hf hpos hnum hnext
    obtain ⟨f, rfl⟩ : ∃ g, fuel = g + 1 := ⟨fuel - 1, by omega⟩
    simp only [List.length_cons] at hn hf
    obtain ⟨hr, hs⟩ := hv r (by simp)
    have hb : pre ++ (rrBytes (r :: l) ++ tail) = pre ++ (r.bytes ++ (rrBytes l ++ tail)) := by
      rw [rrBytes_cons]; simp
    have hok : (rItem .answer r).Ok := rItem_ok hr (by simp) (by simp)
    have hlook := look_item (b := pre ++ (r.bytes ++ (rrBytes l ++ tail))) (pre := pre) (post := rrBytes l ++ tail)
      (len := len) (it := it) (n := n) (c := c) hok (by rw [rItem_bytes]) (by omega) (by omega)
      (by have := hpu 0 (by simp); simpa [rItem] using this)
    have hnx := (hnext (by omega) (pre ++ (r.bytes ++ (rrBytes l ++ tail))) (by simp)).trans hlook
    obtain ⟨s1, s2⟩ := loop_step hl (fuel := f) hr hs rfl hnx
    rw [hb]
    rw [rrBytes_cons] at hlen
    have hlike := replaced_like hl r
    have hok' : (rItem .answer (replaced (IpChunk.find lists) r)).Ok := rItem_ok (hlike.valid hr) (by simp) (by simp)
    have key := ih (pre ++ (replaced (IpChunk.find lists) r).bytes) ((rItem .answer r).itr it.dataLen pre.length n) (n + 1) f
      (fun x hx => hv x (by simp [hx]))
      (by simp at hlen ⊢; rw [hlike.bytes_length]; omega)
      (fun i hi => by
        have := hpu (i + 1) (by simp; omega)
        rw [show n + 1 + i = n + (i + 1) by omega]; exact this)
      (by omega)
      (by
        intro h
        have := htail (by simp; omega)
        simp only [List.length_cons] at this
        rw [show n + 1 + l.length = n + (l.length + 1) by omega]
        exact this)
      (by omega) ⟨_, rfl⟩ rfl
      (by
        intro h b' hb'
        have hb2 : b' = pre ++ ((rItem .answer (replaced (IpChunk.find lists) r)).bytes ++ b'.drop (pre ++ (replaced (IpChunk.find lists) r).bytes).length) := by
          rw [rItem_bytes, ← List.append_assoc]
          conv => lhs; rw [← List.take_append_drop (pre ++ (replaced (IpChunk.find lists) r).bytes).length b', hb']
        rw [← hlike.itr, next_item hok' hb2 (by omega), rItem_bytes]
        simp)
    refine ⟨?_, ?_⟩
    · rintro ⟨x, hx, hB⟩
      by_cases hr' : Blocked (IpChunk.find lists) r
      · exact ⟨_, s1 hr'⟩
      · rw [s2 hr']
        rcases List.mem_cons.1 hx with rfl | hx
        · exact absurd hB hr'
        · obtain ⟨b', hb'⟩ := key.1 ⟨x, hx, hB⟩
          refine ⟨b', ?_⟩
          rw [← hb']; simp
    · intro h
      have := key.2 (fun x hx => h x (by simp [hx]))
      rw [s2 (h r (by simp))]
      simp only [List.append_assoc] at this
      rw [this, List.map_cons, rrBytes_cons]
      simp

end Verif.IpMisc
