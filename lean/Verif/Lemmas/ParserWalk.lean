import Verif.Lemmas.Parser
/-! Moving to the answers of a message. -/

namespace Verif.Parser
open Message

/-- The walk over the questions stops at the last one. -/
theorem gotoLoop_items {b : List Byte} {len : Nat} {c : Counts} (hq : 0 < c.qd) (xs : List Item) :
    ∀ {pre post : List Byte} {it : Itr} {n fuel : Nat},
    xs ≠ [] → (∀ x ∈ xs, x.Ok ∧ x.pu = .question) → b = pre ++ ((xs.map Item.bytes).flatten ++ post) →
    pre.length + ((xs.map Item.bytes).flatten).length ≤ len →
    (∀ i, i < xs.length → determinePurpose c (n + i) = .question) → n + xs.length = c.qd + 1 →
    xs.length < fuel → next b len c it = look b len c it pre.length n →
    ∃ (x : Item) (d : Nat) (pre' : List Byte), gotoLoop b len c fuel it = some (x.itr d pre'.length c.qd) ∧ x.Ok ∧
      b = pre' ++ (x.bytes ++ post) ∧
      pre' ++ x.bytes = pre ++ (xs.map Item.bytes).flatten := by
  have hall : c.qd ≤ c.all := by unfold Counts.all; omega
  have hqf : c.qFirst = 1 := by unfold Counts.qFirst; rw [if_neg (by omega)]
  induction xs with
  | nil => intro _ _ _ _ _ h; exact absurd rfl h
  | cons x xs ih =>
    intro pre post it n fuel _ hok hb hlen hpu hn hf hnext
    obtain ⟨f, rfl⟩ : ∃ g, fuel = g + 1 := ⟨fuel - 1, by omega⟩
    simp only [List.map_cons, List.flatten_cons] at hb hlen
    simp only [List.length_cons] at hn hf
    obtain ⟨hx, hxq⟩ := hok x (by simp)
    have hb' : b = pre ++ (x.bytes ++ ((xs.map Item.bytes).flatten ++ post)) := by simp [hb]
    have h0 : determinePurpose c n = x.pu := by rw [hxq]; exact hpu 0 (by simp)
    have hlook := look_item (len := len) (it := it) hx hb' (by simp at hlen; omega) (show n ≤ c.all by omega) h0
    rw [hlook] at hnext
    rw [gotoLoop, hnext]
    dsimp only
    have hnum : (x.itr it.dataLen pre.length n).num = n := rfl
    rw [hnum, hqf]
    by_cases hxs : xs = []
    · subst hxs
      simp at hn
      rw [if_pos (by omega)]
      refine ⟨x, it.dataLen, pre, ?_, hx, by simpa using hb', by simp⟩
      rw [hn]
    · have hpos : 0 < xs.length := List.length_pos_iff.mpr hxs
      rw [if_neg (by omega)]
      have := @ih (pre ++ x.bytes) post (x.itr it.dataLen pre.length n) (n + 1) f hxs
        (fun y hy => hok y (by simp [hy])) (by simp [hb]) (by simp at hlen ⊢; omega)
        (fun i hi => by
          have h1 := hpu (i + 1) (by simp; omega)
          rw [show n + 1 + i = n + (i + 1) by omega]; exact h1)
        (by omega) (by omega)
        (by rw [next_item hx hb' (by omega)]; simp)
      simpa using this

/-- Behind the questions, the next record looked at is the first answer. -/
theorem gotoAnswers_from {m : Msg} (hm : m.Valid) (hq : m.qs ≠ []) (post : List Byte) (len : Nat)
    (hlen : m.bytes.length ≤ len) (it0 : Itr) :
    ∃ it d, gotoAnswers (m.bytes ++ post) len (Msg.counts m) it0 = some it ∧ it.dataLen = d ∧
      it.num = m.qs.length ∧ (∃ p, it.pos = some p) ∧
      (m.qs.length < (Msg.counts m).all → ∀ b', b'.take (12 + (qBytes m.qs).length) = m.header ++ qBytes m.qs →
        next b' len (Msg.counts m) it =
        look b' len (Msg.counts m) it (12 + (qBytes m.qs).length) (m.qs.length + 1)) := by
  have hq' : 0 < m.qs.length := List.length_pos_iff.mpr hq
  have h12 : m.header.length = 12 := by simp [Msg.header, hm.head, u16_length]
  have hfl : ((m.qs.map qItem).map Item.bytes).flatten = qBytes m.qs := by
    unfold qBytes; rw [List.map_map]; rw [show (Item.bytes ∘ qItem) = Question.bytes from funext qItem_bytes]
  have hqd : (Msg.counts m).qd = m.qs.length := rfl
  have hqf : (Msg.counts m).qFirst = 1 := by unfold Counts.qFirst; rw [if_neg (by rw [hqd]; omega)]
  obtain ⟨x, d, pre', h1, h2, h3, h4⟩ := gotoLoop_items (b := m.bytes ++ post) (len := len) (c := Msg.counts m)
    hq' (m.qs.map qItem) (pre := m.header) (post := rrBytes m.an ++ (rrBytes m.ns ++ rrBytes m.ar) ++ post)
    (it := { it0 with pos := none }) (n := 1) (fuel := (Msg.counts m).qd + 1)
    (by simpa using hq)
    (by
      intro y hy
      obtain ⟨q, hqm, rfl⟩ := List.mem_map.1 hy
      exact ⟨qItem_ok (hm.qs q hqm), rfl⟩)
    (by rw [hfl]; simp [Msg.bytes, Msg.body])
    (by rw [hfl]; simp [Msg.bytes, Msg.body] at hlen; omega)
    (by
      intro i hi
      unfold determinePurpose within
      rw [if_pos]
      rw [decide_eq_true_iff, hqf, hqd]
      simp at hi
      omega)
    (by rw [hqd]; simp; omega) (by rw [hqd]; simp)
    (by unfold next; simp [h12])
  refine ⟨x.itr d pre'.length (Msg.counts m).qd, _, ?_, rfl, rfl, ⟨_, rfl⟩, ?_⟩
  · unfold gotoAnswers
    dsimp only
    rw [if_pos (by omega)]
    exact h1
  · intro hall b' hb'
    have hb2 : b' = pre' ++ (x.bytes ++ b'.drop (12 + (qBytes m.qs).length)) := by
      rw [← List.append_assoc, h4, hfl, ← hb', List.take_append_drop]
    rw [hqd, next_item h2 hb2 (by omega)]
    congr 1
    have := congrArg List.length h4
    rw [hfl] at this
    simp [h12] at this
    omega

theorem gotoAnswers_msg {m : Msg} (hm : m.Valid) (hq : m.qs ≠ []) (post : List Byte) (len : Nat)
    (hlen : m.bytes.length ≤ len) :
    ∃ it d, gotoAnswers (m.bytes ++ post) len (Msg.counts m) Itr.init = some it ∧ it.dataLen = d ∧
      it.num = m.qs.length ∧ (∃ p, it.pos = some p) ∧
      (m.qs.length < (Msg.counts m).all → ∀ b', b'.take (12 + (qBytes m.qs).length) = m.header ++ qBytes m.qs →
        next b' len (Msg.counts m) it =
        look b' len (Msg.counts m) it (12 + (qBytes m.qs).length) (m.qs.length + 1)) := gotoAnswers_from hm hq post len hlen Itr.init

end Verif.Parser
